import Mathlib.Data.Nat.Notation
import Mathlib.Data.List.Forall2

/-!
# Splitting assignments into assignments of single targets

Models `normalize_assignments` and `unpack_sequence_expression` of `_autoquant/cst/node_processing.py`.
-/

namespace FF.Assign

/-! ## Model -/

/-- An expression, as a target or as a value: a tuple or list display whose elements carry a mark telling that they are starred,
or anything else (`atom`; a name, an attribute, a subscript, a call). Tuples and lists are not told apart: the code treats them
alike (`node_processing.py:101-112`), and so does unpacking in Python. -/
inductive Expr
  | atom (n : ℕ)
  | seq (es : List (Bool × Expr))

/-- `node_processing.py:83-94` `NormalizedAssignment`. -/
structure NA where
  targets : List Expr
  value : Expr

mutual

/-- `node_processing.py:195-218` `unpack_sequence_expression`. Nested calls do not pass `include_starred` on (line 216). -/
def unpack (incl : Bool) : Expr → List Expr
  | .atom n => [.atom n]
  | .seq es => unpackAll incl es

/-- The loop of `node_processing.py:214-216`. -/
def unpackAll (incl : Bool) : List (Bool × Expr) → List Expr
  | [] => []
  | (st, e) :: es => (if st && !incl then [] else unpack false e) ++ unpackAll incl es

end

/-- `node_processing.py:187-192` `_indexof_star`, as a test. -/
def hasStar (es : List (Bool × Expr)) : Bool := es.any (·.1)

mutual

/-- `node_processing.py:97-112` `_normalize_assignment`, with `_normalize_item_to_seq_assignment` (173-184), and the choice between a
joint assignment and assignments of elements of `_normalize_seq_to_seq_assignment` (124-127) and
`_normalize_seq_to_starred_seq_assignment` (146-152). -/
def norm : Expr → Expr → List NA
  | .atom n, v => [⟨[.atom n], v⟩]
  | .seq ts, .atom n => [⟨unpackAll true ts, .atom n⟩]
  | .seq ts, .seq vs =>
    if hasStar ts then
      if vs.length < ts.length - 1 then [⟨ts.map (·.2), .seq vs⟩] else normStar ts vs
    else
      if ts.length ≠ vs.length then [⟨ts.map (·.2), .seq vs⟩] else normZip ts vs

/-- `node_processing.py:129-130` and `169-170`: targets and values one by one. -/
def normZip : List (Bool × Expr) → List (Bool × Expr) → List NA
  | (_, t) :: ts, (_, v) :: vs => norm t v ++ normZip ts vs
  | _, _ => []

/-- `node_processing.py:154-170`, with the values before the current target dropped: the elements before the starred one, one by one;
then the starred one, which gets a list of all values but as many as there are targets left; then those. -/
def normStar : List (Bool × Expr) → List (Bool × Expr) → List NA
  | [], _ => []
  | (true, t) :: ts, vs =>
    ⟨[t], .seq (vs.take (vs.length - ts.length))⟩ :: normZip ts (vs.drop (vs.length - ts.length))
  | (false, t) :: ts, (_, v) :: vs => norm t v ++ normStar ts vs
  | (false, _) :: _, [] => []

end

/-- `node_processing.py:16-80` `normalize_assignments`: `none` is a declaration without value. -/
def normalizeAssignments (targets : List Expr) : Option Expr → List NA
  | none => []
  | some v => targets.flatMap (norm · v)

/-! ## Specification: assignment in Python -/

/-- A value: a sequence, or an object that cannot be unpacked. -/
inductive Val
  | obj (n : ℕ)
  | seq (vs : List Val)

mutual

/-- The value of an expression, given those of its atoms; `none` if a starred element is not a sequence. -/
def eval (env : ℕ → Val) : Expr → Option Val
  | .atom n => some (env n)
  | .seq es => (evalAll env es).map .seq

/-- The items of a display. -/
def evalAll (env : ℕ → Val) : List (Bool × Expr) → Option (List Val)
  | [] => some []
  | (false, e) :: es =>
    match eval env e, evalAll env es with
    | some v, some vs => some (v :: vs)
    | _, _ => none
  | (true, e) :: es =>
    match eval env e, evalAll env es with
    | some (.seq us), some vs => some (us ++ vs)
    | _, _ => none

end

mutual

/-- What assigning a value to a target does, by the rules of the Python reference: the assignments to the leaves of the target,
in order. Without a starred target there have to be as many items as targets; with one, it gets the list of the items that
are not needed for the others. -/
inductive Binds : Expr → Val → List (ℕ × Val) → Prop
  | atom (n v) : Binds (.atom n) v [(n, v)]
  | exact {ts vs bs} : BindsAll ts vs bs → Binds (.seq (ts.map (false, ·))) (.seq vs) bs
  | starred {pre star post us ms ws b₁ b₂ b₃} :
      BindsAll pre us b₁ → Binds star (.seq ms) b₂ → BindsAll post ws b₃ →
      Binds (.seq (pre.map (false, ·) ++ (true, star) :: post.map (false, ·))) (.seq (us ++ ms ++ ws)) (b₁ ++ b₂ ++ b₃)

/-- As many items as targets, one by one. -/
inductive BindsAll : List Expr → List Val → List (ℕ × Val) → Prop
  | nil : BindsAll [] [] []
  | cons {t ts v vs b bs} : Binds t v b → BindsAll ts vs bs → BindsAll (t :: ts) (v :: vs) (b ++ bs)

end

mutual

/-- The leaves of a target, in order. -/
def leaves : Expr → List ℕ
  | .atom n => [n]
  | .seq es => leavesAll es

/-- The leaves of the elements of a target. -/
def leavesAll : List (Bool × Expr) → List ℕ
  | [] => []
  | (_, e) :: es => leaves e ++ leavesAll es

end

mutual

/-- No element of the target, at any depth, is starred. -/
def StarFree : Expr → Prop
  | .atom _ => True
  | .seq es => StarFreeAll es

/-- No element is starred, at any depth. -/
def StarFreeAll : List (Bool × Expr) → Prop
  | [] => True
  | (st, e) :: es => st = false ∧ StarFree e ∧ StarFreeAll es

end

/-- `u` is `v`, or an item of a sequence, or a list of consecutive items, at any depth in `v`. -/
inductive Part : Val → Val → Prop
  | refl (v) : Part v v
  | item {u v vs} : v ∈ vs → Part u v → Part u (.seq vs)
  | slice {u us ms ws} : Part u (.seq ms) → Part u (.seq (us ++ ms ++ ws))

/-- A normalized assignment tells the truth about some assignments to leaves: with a single target, that is a leaf, and gets the
value; otherwise the targets are the leaves, and get parts of the value. -/
inductive Tells (env : ℕ → Val) : NA → List (ℕ × Val) → Prop
  | single {n e v} : eval env e = some v → Tells env ⟨[.atom n], e⟩ [(n, v)]
  | joint {ts e w bs} : ts.length ≠ 1 → ts = bs.map (fun b => .atom b.1) → eval env e = some w →
      (∀ b ∈ bs, Part b.2 w) → Tells env ⟨ts, e⟩ bs

/-- The normalized assignments, in order, tell the truth about all assignments to leaves, each of them once. -/
inductive TellsAll (env : ℕ → Val) : List NA → List (ℕ × Val) → Prop
  | nil : TellsAll env [] []
  | cons {a as b bs} : Tells env a b → TellsAll env as bs → TellsAll env (a :: as) (b ++ bs)

mutual

/-- The pairs of a target and a value that the code does right. Where a sequence of targets meets a value that is not a display, it
does not have a single leaf, and no starred element below the first level. Where it meets a display, no element of the display that
goes to a target without star is starred, and the starred target is not a sequence. -/
inductive Fine : Expr → Expr → Prop
  | atom (n e) : Fine (.atom n) e
  | item {ts n} : (∀ t ∈ ts, StarFree t.2) → (leavesAll ts).length ≠ 1 → Fine (.seq ts) (.atom n)
  | exact {ts es} : FineAll ts es → Fine (.seq (ts.map (false, ·))) (.seq (es.map (false, ·)))
  | starred {pre n post us ms ws} : FineAll pre us → FineAll post ws →
      Fine (.seq (pre.map (false, ·) ++ (true, .atom n) :: post.map (false, ·)))
        (.seq (us.map (false, ·) ++ ms ++ ws.map (false, ·)))

/-- As many values as targets, each of them done right. -/
inductive FineAll : List Expr → List Expr → Prop
  | nil : FineAll [] []
  | cons {t ts e es} : Fine t e → FineAll ts es → FineAll (t :: ts) (e :: es)

end

/-! ## Lemmas -/

theorem TellsAll.append {env a b x y} (h : TellsAll env a x) (h' : TellsAll env b y) : TellsAll env (a ++ b) (x ++ y) := by
  induction h with
  | nil => simpa using h'
  | cons h _ ih => rw [List.append_assoc]; exact .cons h ih

theorem TellsAll.one {env a x} (h : Tells env a x) : TellsAll env [a] x := by
  simpa using TellsAll.cons h .nil

theorem hasStar_false (ts : List Expr) : hasStar (ts.map (false, ·)) = false := by
  simp [hasStar]

theorem map_inj {ts us : List Expr} (h : ts.map (fun t => (false, t)) = us.map (false, ·)) : ts = us := by
  induction ts generalizing us with
  | nil => cases us <;> simp_all
  | cons t ts ih =>
    cases us with
    | nil => simp at h
    | cons u us => simp at h; rw [h.1, ih h.2]

theorem star_ne {ts pre : List Expr} {r} (h : ts.map (fun t => (false, t)) = pre.map (false, ·) ++ (true, s) :: r) : False := by
  have : (true, s) ∈ ts.map (fun t => (false, t)) := by rw [h]; simp
  simp at this

theorem star_inj {pre pre' post post' : List Expr} {s s' : Expr}
    (h : pre.map (fun t => (false, t)) ++ (true, s) :: post.map (false, ·)
      = pre'.map (false, ·) ++ (true, s') :: post'.map (false, ·)) : pre = pre' ∧ s = s' ∧ post = post' := by
  induction pre generalizing pre' with
  | nil =>
    cases pre' with
    | nil => simp at h; exact ⟨rfl, h.1, map_inj h.2⟩
    | cons p pre' => simp at h
  | cons p pre ih =>
    cases pre' with
    | nil => simp at h
    | cons p' pre' =>
      simp at h
      obtain ⟨rfl, h⟩ := h
      obtain ⟨rfl, rfl, rfl⟩ := ih h
      exact ⟨rfl, rfl, rfl⟩

theorem Binds.inv_exact {t v b ts} (h : Binds t v b) (e : t = .seq (ts.map (false, ·))) :
    ∃ vs, v = .seq vs ∧ BindsAll ts vs b := by
  cases h with
  | atom => cases e
  | exact h => injection e with e; rw [map_inj e] at h; exact ⟨_, rfl, h⟩
  | starred => injection e with e; exact (star_ne e.symm).elim

theorem Binds.inv_starred {t v b pre s post} (h : Binds t v b)
    (e : t = .seq (pre.map (false, ·) ++ (true, s) :: post.map (false, ·))) :
    ∃ us ms ws b₁ b₂ b₃, v = .seq (us ++ ms ++ ws) ∧ b = b₁ ++ b₂ ++ b₃ ∧
      BindsAll pre us b₁ ∧ Binds s (.seq ms) b₂ ∧ BindsAll post ws b₃ := by
  cases h with
  | atom => cases e
  | exact h => injection e with e; exact (star_ne e).elim
  | starred h₁ h₂ h₃ =>
    injection e with e
    obtain ⟨rfl, rfl, rfl⟩ := star_inj e
    exact ⟨_, _, _, _, _, _, rfl, rfl, h₁, h₂, h₃⟩

theorem BindsAll.length {ts vs b} : BindsAll ts vs b → ts.length = vs.length
  | .nil => rfl
  | .cons _ h => by simp [h.length]

theorem FineAll.length {ts es} : FineAll ts es → ts.length = es.length
  | .nil => rfl
  | .cons _ h => by simp [h.length]

theorem leavesAll_append (a b : List (Bool × Expr)) : leavesAll (a ++ b) = leavesAll a ++ leavesAll b := by
  induction a with
  | nil => rfl
  | cons x a ih => simp [leavesAll, ih]

mutual

theorem Binds.leaves {t v b} : Binds t v b → b.map (·.1) = leaves t
  | .atom _ _ => rfl
  | .exact h => by rw [h.leaves]; rfl
  | .starred h₁ h₂ h₃ => by
    simp only [List.map_append, h₁.leaves, h₂.leaves, h₃.leaves, FF.Assign.leaves, leavesAll_append, leavesAll, List.append_assoc]

theorem BindsAll.leaves {ts vs b} : BindsAll ts vs b → b.map (·.1) = leavesAll (ts.map (false, ·))
  | .nil => rfl
  | .cons h h' => by simp [leavesAll, h.leaves, h'.leaves]

end

mutual

theorem Binds.part {t v b} : Binds t v b → ∀ x ∈ b, Part x.2 v
  | .atom _ _ => by simp; exact .refl _
  | .exact h => fun x hx => by
    obtain ⟨v, hv, h⟩ := h.part x hx
    exact .item hv h
  | .starred h₁ h₂ h₃ => fun x hx => by
    rcases List.mem_append.1 hx with hx | hx
    · rcases List.mem_append.1 hx with hx | hx
      · obtain ⟨v, hv, h⟩ := h₁.part x hx
        exact .item (by simp [hv]) h
      · exact .slice (h₂.part x hx)
    · obtain ⟨v, hv, h⟩ := h₃.part x hx
      exact .item (by simp [hv]) h

theorem BindsAll.part {ts vs b} : BindsAll ts vs b → ∀ x ∈ b, ∃ v ∈ vs, Part x.2 v
  | .nil => by simp
  | .cons h h' => fun x hx => by
    rcases List.mem_append.1 hx with hx | hx
    · exact ⟨_, by simp, h.part x hx⟩
    · obtain ⟨v, hv, h⟩ := h'.part x hx
      exact ⟨v, by simp [hv], h⟩

end

mutual

theorem unpack_starFree (incl : Bool) : (t : Expr) → StarFree t → unpack incl t = (leaves t).map .atom
  | .atom _, _ => rfl
  | .seq es, h => unpackAll_starFree incl es h

theorem unpackAll_starFree (incl : Bool) : (ts : List (Bool × Expr)) → StarFreeAll ts → unpackAll incl ts = (leavesAll ts).map .atom
  | [], _ => rfl
  | (st, e) :: es, h => by
    obtain ⟨rfl, h, h'⟩ := h
    simp [unpackAll, leavesAll, unpack_starFree false e h, unpackAll_starFree incl es h']

end

theorem unpackAll_true {ts : List (Bool × Expr)} (h : ∀ t ∈ ts, StarFree t.2) :
    unpackAll true ts = (leavesAll ts).map .atom := by
  induction ts with
  | nil => rfl
  | cons t ts ih =>
    obtain ⟨st, e⟩ := t
    simp [unpackAll, leavesAll, unpack_starFree false e (h (st, e) (by simp)), ih (fun t ht => h t (by simp [ht]))]

theorem evalAll_append (env : ℕ → Val) (a b : List (Bool × Expr)) (ws : List Val) (h : evalAll env (a ++ b) = some ws) :
    ∃ us vs, evalAll env a = some us ∧ evalAll env b = some vs ∧ ws = us ++ vs := by
  induction a generalizing ws with
  | nil => exact ⟨[], ws, rfl, h, rfl⟩
  | cons x a ih =>
    obtain ⟨st, e⟩ := x
    rw [List.cons_append] at h
    cases st with
    | false =>
      rw [evalAll] at h
      split at h
      · rename_i v vs hv hvs
        obtain ⟨us, vs', hu, hv', rfl⟩ := ih _ hvs
        cases h
        exact ⟨v :: us, vs', by simp [evalAll, hv, hu], hv', rfl⟩
      · cases h
    | true =>
      rw [evalAll] at h
      split at h
      · rename_i v vs hv hvs
        obtain ⟨us, vs', hu, hv', rfl⟩ := ih _ hvs
        cases h
        exact ⟨v ++ us, vs', by simp [evalAll, hv, hu], hv', by simp⟩
      · cases h

theorem evalAll_length (env : ℕ → Val) (es : List Expr) (vs : List Val) (h : evalAll env (es.map (false, ·)) = some vs) :
    vs.length = es.length := by
  induction es generalizing vs with
  | nil => cases h; rfl
  | cons e es ih =>
    simp only [List.map_cons, evalAll] at h
    split at h
    · rename_i v vs' _ hvs
      cases h
      simp [ih _ hvs]
    · cases h

theorem normStar_split (s : Expr) (post : List (Bool × Expr)) (ms ws : List (Bool × Expr)) (hw : post.length = ws.length) :
    (pre us : List Expr) → pre.length = us.length →
    normStar (pre.map (false, ·) ++ (true, s) :: post) (us.map (false, ·) ++ ms ++ ws)
      = normZip (pre.map (false, ·)) (us.map (false, ·)) ++ ⟨[s], .seq ms⟩ :: normZip post ws
  | [], [], _ => by
    simp only [List.map_nil, List.nil_append, normStar, normZip, List.length_append, hw, Nat.add_sub_cancel]
    rw [List.take_left, List.drop_left]
  | t :: pre, u :: us, h => by
    have ih := normStar_split s post ms ws hw pre us (by simpa using h)
    simp only [List.map_cons, List.cons_append, normStar, normZip, List.append_assoc] at ih ⊢
    rw [ih]

mutual

theorem norm_tells (env : ℕ → Val) {t e} (hf : Fine t e) {v b} (he : eval env e = some v) (hb : Binds t v b) :
    TellsAll env (norm t e) b := by
  match hf with
  | .atom n e =>
    cases hb
    exact .one (.single he)
  | .item h hl =>
    rw [norm]
    have hlv := hb.leaves
    rw [leaves] at hlv
    refine .one (.joint ?_ ?_ he hb.part)
    · rw [unpackAll_true h]; simpa using hl
    · rw [unpackAll_true h, ← hlv]; simp
  | .exact (ts := ts) (es := es) h =>
    obtain ⟨vs, rfl, hbs⟩ := hb.inv_exact rfl
    rw [norm, hasStar_false, if_neg (by simp), if_neg (by simp [h.length])]
    refine normZip_tells env h ?_ hbs
    rw [eval] at he
    cases hev : evalAll env (es.map (false, ·)) with
    | none => rw [hev] at he; cases he
    | some us => rw [hev] at he; cases he; rfl
  | .starred (pre := pre) (n := n) (post := post) (us := us) (ms := ms) (ws := ws) h h' =>
    obtain ⟨us', ms', ws', b₁, b₂, b₃, rfl, rfl, h₁, h₂, h₃⟩ := hb.inv_starred rfl
    rw [norm, if_pos (by simp [hasStar]), if_neg (by simp [h.length, h'.length])]
    rw [normStar_split _ _ _ _ (by simp [h'.length]) _ _ h.length]
    rw [eval] at he
    cases hev : evalAll env (us.map (false, ·) ++ ms ++ ws.map (false, ·)) with
    | none => rw [hev] at he; cases he
    | some vs =>
      rw [hev] at he
      injection he with he
      injection he with he
      subst he
      obtain ⟨um, w, hum, hw, hq⟩ := evalAll_append env _ _ _ hev
      obtain ⟨u, m, hu, hm, rfl⟩ := evalAll_append env _ _ _ hum
      have lw := evalAll_length env _ _ hw
      have lu := evalAll_length env _ _ hu
      obtain ⟨hq', rfl⟩ := List.append_inj' hq (by rw [lw, ← h'.length, h₃.length])
      obtain ⟨rfl, rfl⟩ := List.append_inj hq' (by rw [lu, ← h.length, h₁.length])
      cases h₂
      rw [List.append_assoc]
      refine (normZip_tells env h hu h₁).append (.cons (.single ?_) (normZip_tells env h' hw h₃))
      rw [eval, hm]
      rfl

theorem normZip_tells (env : ℕ → Val) {ts es} (hf : FineAll ts es) {vs b} (he : evalAll env (es.map (false, ·)) = some vs)
    (hb : BindsAll ts vs b) : TellsAll env (normZip (ts.map (false, ·)) (es.map (false, ·))) b := by
  match hf with
  | .nil =>
    cases hb
    exact .nil
  | .cons h h' =>
    simp only [List.map_cons, evalAll] at he
    split at he
    · rename_i v vs' hv hvs
      cases he
      cases hb with
      | cons h₁ h₂ => exact (norm_tells env h hv h₁).append (normZip_tells env h' hvs h₂)
    · cases he

end

theorem leavesAll_map (ts : List (Bool × Expr)) : ((ts.map (·.2)).flatMap leaves) = leavesAll ts := by
  induction ts with
  | nil => rfl
  | cons t ts ih => simp [leavesAll, ih]

mutual

theorem unpack_sub (incl : Bool) : (t : Expr) → ((unpack incl t).flatMap leaves).Sublist (leaves t)
  | .atom _ => by simp [unpack, leaves]
  | .seq es => by
    rw [unpack, leaves]
    exact unpackAll_sub incl es

theorem unpackAll_sub (incl : Bool) : (ts : List (Bool × Expr)) → ((unpackAll incl ts).flatMap leaves).Sublist (leavesAll ts)
  | [] => by simp [unpackAll, leavesAll]
  | (st, e) :: es => by
    rw [unpackAll, leavesAll, List.flatMap_append]
    refine List.Sublist.append ?_ (unpackAll_sub incl es)
    split
    · simp
    · exact unpack_sub false e

end

mutual

theorem norm_targets : (t e : Expr) → ((norm t e).flatMap (·.targets.flatMap leaves)).Sublist (leaves t)
  | .atom _, _ => by simp [norm, leaves]
  | .seq ts, .atom _ => by
    rw [norm, leaves]
    simpa using unpackAll_sub true ts
  | .seq ts, .seq vs => by
    rw [norm, leaves]
    split
    · split
      · simp [leavesAll_map]
      · exact normStar_targets ts vs
    · split
      · simp [leavesAll_map]
      · exact normZip_targets ts vs

theorem normZip_targets : (ts vs : List (Bool × Expr)) →
    ((normZip ts vs).flatMap (·.targets.flatMap leaves)).Sublist (leavesAll ts)
  | [], _ => by simp [normZip]
  | (_, _) :: _, [] => by simp [normZip]
  | (_, t) :: ts, (_, v) :: vs => by
    rw [normZip, leavesAll, List.flatMap_append]
    exact (norm_targets t v).append (normZip_targets ts vs)

theorem normStar_targets : (ts vs : List (Bool × Expr)) →
    ((normStar ts vs).flatMap (·.targets.flatMap leaves)).Sublist (leavesAll ts)
  | [], _ => by simp [normStar]
  | (true, t) :: ts, vs => by
    rw [normStar, leavesAll, List.flatMap_cons]
    refine List.Sublist.append ?_ (normZip_targets ts _)
    simp
  | (false, t) :: ts, (_, v) :: vs => by
    rw [normStar, leavesAll, List.flatMap_append]
    exact (norm_targets t v).append (normStar_targets ts vs)
  | (false, _) :: _, [] => by simp [normStar]

end

mutual

theorem norm_values : (t e : Expr) → (norm t e).flatMap (leaves ·.value) = leaves e
  | .atom _, _ => by simp [norm]
  | .seq ts, .atom _ => by simp [norm]
  | .seq ts, .seq vs => by
    rw [norm]
    split
    · rename_i h
      split
      · simp
      · rw [normStar_values ts vs h (by omega), leaves]
    · split
      · simp
      · rename_i h
        rw [normZip_values ts vs (by simpa using h), leaves]

theorem normZip_values : (ts vs : List (Bool × Expr)) → ts.length = vs.length →
    (normZip ts vs).flatMap (leaves ·.value) = leavesAll vs
  | [], [], _ => by simp [normZip, leavesAll]
  | (_, t) :: ts, (_, v) :: vs, h => by
    rw [normZip, leavesAll, List.flatMap_append, norm_values t v, normZip_values ts vs (by simpa using h)]

theorem normStar_values : (ts vs : List (Bool × Expr)) → hasStar ts = true → ts.length - 1 ≤ vs.length →
    (normStar ts vs).flatMap (leaves ·.value) = leavesAll vs
  | [], _, h, _ => by simp [hasStar] at h
  | (true, t) :: ts, vs, _, hl => by
    have hl' : ts.length ≤ vs.length := by simpa using hl
    rw [normStar, List.flatMap_cons, normZip_values ts _ (by simp; omega), leaves, ← leavesAll_append, List.take_append_drop]
  | (false, t) :: ts, (_, v) :: vs, h, hl => by
    rw [normStar, leavesAll, List.flatMap_append, norm_values t v,
      normStar_values ts vs (by simpa [hasStar] using h) (by simp at hl; omega)]
  | (false, _) :: ts, [], h, hl => by
    cases ts with
    | nil => simp [hasStar] at h
    | cons => simp at hl

end

/-! ## Properties -/

/-- **C93 (partial).** For every assignment statement `t₁ = t₂ = … = e` whose targets and value are of the shapes in `Fine`, and
all values of the atoms for which Python carries the assignment out: the normalized assignments tell the truth about all
assignments to leaves that Python makes, in order, each of them once. Missing: the other shapes, see the deviations. -/
theorem assignments_told_partial (env : ℕ → Val) (targets : List Expr) (e : Expr) (v : Val) (bs : List (List (ℕ × Val)))
    (hf : ∀ t ∈ targets, Fine t e) (he : eval env e = some v) (hb : List.Forall₂ (fun t b => Binds t v b) targets bs) :
    TellsAll env (normalizeAssignments targets (some e)) bs.flatten := by
  induction hb with
  | nil => exact .nil
  | cons h _ ih =>
    simp only [normalizeAssignments, List.flatMap_cons, List.flatten_cons] at ih ⊢
    exact (norm_tells env (hf _ (by simp)) he h).append (ih (fun t ht => hf t (by simp [ht])))

/-- **C93.** Normalized assignments assign to nothing but leaves of the target, to each at most once, in order; whatever the shapes. -/
theorem targets_from_target (t e : Expr) : ((norm t e).flatMap (·.targets.flatMap leaves)).Sublist (leaves t) :=
  norm_targets t e

/-- **C93.** The values of the normalized assignments for a target hold every atom of the value once, in order: no part of the value
is left out of, or repeated in, the analysis; whatever the shapes. -/
theorem values_once (t e : Expr) : (norm t e).flatMap (leaves ·.value) = leaves e :=
  norm_values t e

/-- **C93.** A declaration without a value assigns nothing. -/
theorem declaration_assigns_nothing (targets : List Expr) : normalizeAssignments targets none = [] :=
  rfl

/-- **C93 (partial).** The targets listed for a loop, a comprehension or a `with` item without starred targets are those
that Python assigns, in order. Missing: starred targets, see `loop_star_lost`. -/
theorem loop_targets_partial (t : Expr) (h : StarFree t) (v : Val) (b : List (ℕ × Val)) (hb : Binds t v b) :
    unpack false t = b.map (fun x => .atom x.1) := by
  rw [unpack_starFree false t h, ← hb.leaves]
  simp

/-! ## Deviations -/

/-- **C93, deviation.** Starred elements of the value are taken for single ones: `a, b = *x, y` is told to assign the whole of `x` to
`a`, whatever `x` is; if `x` has a single item, Python assigns that. -/
theorem starred_value_misread (a b x y : ℕ) (env : ℕ → Val) (u : Val) (hx : env x = .seq [u]) :
    norm (.seq [(false, .atom a), (false, .atom b)]) (.seq [(true, .atom x), (false, .atom y)])
      = [⟨[.atom a], .atom x⟩, ⟨[.atom b], .atom y⟩] ∧
    eval env (.seq [(true, .atom x), (false, .atom y)]) = some (.seq [u, env y]) ∧
    Binds (.seq [(false, .atom a), (false, .atom b)]) (.seq [u, env y]) [(a, u), (b, env y)] := by
  refine ⟨by simp [norm, normZip, hasStar], by simp [eval, evalAll, hx], ?_⟩
  exact .exact (ts := [.atom a, .atom b]) (.cons (b := [(a, u)]) (.atom a u) (.cons (b := [(b, env y)]) (.atom b _) .nil))

/-- **C93, deviation.** A starred target below the first level is lost where the value is not a display: `a, (b, *c) = d` is not told to assign
`c`, although Python does. -/
theorem nested_star_lost (a b c d : ℕ) (u v : Val) (ws : List Val) :
    norm (.seq [(false, .atom a), (false, .seq [(false, .atom b), (true, .atom c)])]) (.atom d) = [⟨[.atom a, .atom b], .atom d⟩] ∧
    Binds (.seq [(false, .atom a), (false, .seq [(false, .atom b), (true, .atom c)])]) (.seq [u, .seq (v :: ws)])
      [(a, u), (b, v), (c, .seq ws)] := by
  refine ⟨by simp [norm, unpackAll, unpack], ?_⟩
  have h : Binds (.seq [(false, .atom b), (true, .atom c)]) (.seq (v :: ws)) [(b, v), (c, .seq ws)] := by
    have := Binds.starred (pre := [.atom b]) (star := .atom c) (post := []) (us := [v]) (ms := ws) (ws := [])
      (.cons (.atom b v) .nil) (.atom c _) .nil
    simpa using this
  exact .exact (ts := [.atom a, .seq [(false, .atom b), (true, .atom c)]])
    (.cons (b := [(a, u)]) (.atom a u) (.cons (b := [(b, v), (c, .seq ws)]) h .nil))

/-- **C93, deviation.** The starred target of a loop, a comprehension or a `with` item is lost at every level: `for a, *b in …` is not told to
assign `b`, although Python does. -/
theorem loop_star_lost (a b : ℕ) (u : Val) (ws : List Val) :
    unpack false (.seq [(false, .atom a), (true, .atom b)]) = [.atom a] ∧
    Binds (.seq [(false, .atom a), (true, .atom b)]) (.seq (u :: ws)) [(a, u), (b, .seq ws)] := by
  refine ⟨by simp [unpackAll, unpack], ?_⟩
  have := Binds.starred (pre := [.atom a]) (star := .atom b) (post := []) (us := [u]) (ms := ws) (ws := [])
    (.cons (.atom a u) .nil) (.atom b _) .nil
  simpa using this

/-- **C93, deviation.** `(a,) = d` is normalized like `a = d`, so that `a` is told to be all of `d`; Python assigns its only item. -/
theorem single_target_misread (a d : ℕ) (v : Val) :
    norm (.seq [(false, .atom a)]) (.atom d) = norm (.atom a) (.atom d) ∧
    Binds (.seq [(false, .atom a)]) (.seq [v]) [(a, v)] := by
  refine ⟨by simp [norm, unpackAll, unpack], ?_⟩
  exact .exact (ts := [.atom a]) (.cons (b := [(a, v)]) (.atom a v) .nil)

/-- **C93, deviation.** In a joint assignment from a display nested targets stay nested: in `(a, b), c = (*x,)` neither `a` nor `b` is
a target, so that an analysis of names misses them. -/
theorem joint_targets_nested (a b c x : ℕ) (env : ℕ → Val) (u v w : Val) (hx : env x = .seq [.seq [u, v], w]) :
    norm (.seq [(false, .seq [(false, .atom a), (false, .atom b)]), (false, .atom c)]) (.seq [(true, .atom x)])
      = [⟨[.seq [(false, .atom a), (false, .atom b)], .atom c], .seq [(true, .atom x)]⟩] ∧
    eval env (.seq [(true, .atom x)]) = some (.seq [.seq [u, v], w]) ∧
    Binds (.seq [(false, .seq [(false, .atom a), (false, .atom b)]), (false, .atom c)]) (.seq [.seq [u, v], w])
      [(a, u), (b, v), (c, w)] := by
  refine ⟨by simp [norm, hasStar], by simp [eval, evalAll, hx], ?_⟩
  have h : Binds (.seq [(false, .atom a), (false, .atom b)]) (.seq [u, v]) [(a, u), (b, v)] :=
    .exact (ts := [.atom a, .atom b]) (.cons (b := [(a, u)]) (.atom a u) (.cons (b := [(b, v)]) (.atom b v) .nil))
  exact .exact (ts := [.seq [(false, .atom a), (false, .atom b)], .atom c])
    (.cons (b := [(a, u), (b, v)]) h (.cons (b := [(c, w)]) (.atom c w) .nil))

/-- **C93, deviation.** A sequence of targets behind a star stays one target: in `*(a, b), c = x, y, z` neither `a` nor `b` is a target. -/
theorem starred_targets_nested (a b c x y z : ℕ) (env : ℕ → Val) :
    norm (.seq [(true, .seq [(false, .atom a), (false, .atom b)]), (false, .atom c)])
        (.seq [(false, .atom x), (false, .atom y), (false, .atom z)])
      = [⟨[.seq [(false, .atom a), (false, .atom b)]], .seq [(false, .atom x), (false, .atom y)]⟩, ⟨[.atom c], .atom z⟩] ∧
    Binds (.seq [(true, .seq [(false, .atom a), (false, .atom b)]), (false, .atom c)]) (.seq [env x, env y, env z])
      [(a, env x), (b, env y), (c, env z)] := by
  refine ⟨by simp [norm, normStar, normZip, hasStar], ?_⟩
  have h : Binds (.seq [(false, .atom a), (false, .atom b)]) (.seq [env x, env y]) [(a, env x), (b, env y)] :=
    .exact (ts := [.atom a, .atom b]) (.cons (b := [(a, env x)]) (.atom a _) (.cons (b := [(b, env y)]) (.atom b _) .nil))
  have := Binds.starred (pre := []) (post := [.atom c]) (us := []) (ms := [env x, env y]) (ws := [env z])
    .nil h (.cons (.atom c _) .nil)
  simpa using this

/-! ## Concrete cases -/

/-- The hypotheses of `assignments_told_partial` are met by `a, (b, *c), d = x, [y, *z, x], y`: -/
example : Fine
    (.seq [(false, .atom 0), (false, .seq [(false, .atom 1), (true, .atom 2)]), (false, .atom 3)])
    (.seq [(false, .atom 10), (false, .seq [(false, .atom 11), (true, .atom 12), (false, .atom 10)]), (false, .atom 11)]) := by
  refine .exact (ts := [.atom 0, .seq [(false, .atom 1), (true, .atom 2)], .atom 3])
    (es := [.atom 10, .seq [(false, .atom 11), (true, .atom 12), (false, .atom 10)], .atom 11])
    (.cons (.atom _ _) (.cons ?_ (.cons (.atom _ _) .nil)))
  exact .starred (pre := [.atom 1]) (post := []) (us := [.atom 11]) (ms := [(true, .atom 12), (false, .atom 10)]) (ws := [])
    (.cons (.atom _ _) .nil) .nil

/-- … and by `(a, b), c = x, y` where `x` is a pair: -/
example : Fine (.seq [(false, .seq [(false, .atom 0), (false, .atom 1)]), (false, .atom 2)])
    (.seq [(false, .atom 10), (false, .atom 11)]) :=
  .exact (ts := [.seq [(false, .atom 0), (false, .atom 1)], .atom 2]) (es := [.atom 10, .atom 11])
    (.cons (.item (by simp [StarFree]) (by simp [leavesAll, leaves])) (.cons (.atom _ _) .nil))

/-- which Python carries out if `x` has two items. -/
example (env : ℕ → Val) (u v : Val) (hx : env 10 = .seq [u, v]) :
    eval env (.seq [(false, .atom 10), (false, .atom 11)]) = some (.seq [.seq [u, v], env 11]) ∧
    Binds (.seq [(false, .seq [(false, .atom 0), (false, .atom 1)]), (false, .atom 2)]) (.seq [.seq [u, v], env 11])
      [(0, u), (1, v), (2, env 11)] := by
  refine ⟨by simp [eval, evalAll, hx], ?_⟩
  have h : Binds (.seq [(false, .atom 0), (false, .atom 1)]) (.seq [u, v]) [(0, u), (1, v)] :=
    .exact (ts := [.atom 0, .atom 1]) (.cons (b := [(0, u)]) (.atom 0 u) (.cons (b := [(1, v)]) (.atom 1 v) .nil))
  exact .exact (ts := [.seq [(false, .atom 0), (false, .atom 1)], .atom 2])
    (.cons (b := [(0, u), (1, v)]) h (.cons (b := [(2, env 11)]) (.atom 2 _) .nil))

end FF.Assign
