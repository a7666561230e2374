/-!
# Folding temporaries

Models `FoldSimpleTemporaries` and `_NodeReplacer` of `_autoquant/cst/passes.py`, with the scopes of `_autoquant/pysource/scope.py`: a variable `tmp_1` that
is assigned once and used once is replaced by its value, and its assignment is removed.

Simplifications: functions are sequences of assignments and returns, without branches, loops and inner functions. Values are integers, operations are
arbitrary partial functions of their arguments, so that the order in which operations are done does not show. A use is replaced by variable, not by node: as
there is only one use, that is the same. But nodes matter in one respect: a LibCST transformer makes a copy of every node whose children it visits, and
`visit_GeneralAssignment` keeps it from visiting those of an assignment to a single name. So the nodes to replace are found again in those assignments and
nowhere else.
-/

namespace FF.FoldTemps

/-! ## Model -/

/-- Variables: those that match `tmp_\d+`, passes.py:1135-1136, and others. -/
inductive Var where
  | tmp (k : Nat)
  | user (s : String)
  deriving DecidableEq, Repr

/-- Expressions. -/
inductive Expr where
  | var (x : Var)
  | lit (n : Int)
  | op (f : Nat) (args : List Expr)

/-- Statements. -/
inductive Stmt where
  /-- `x = y = e` -/
  | assign (ts : List Var) (e : Expr)
  /-- `x, y = e` -/
  | unpack (ts : List Var) (e : Expr)
  /-- `return e` -/
  | ret (e : Expr)

mutual
/-- The names in an expression, each as often as it occurs. -/
def vars : Expr → List Var
  | .var x => [x]
  | .lit _ => []
  | .op _ args => varsAll args
/-- The names in several expressions. -/
def varsAll : List Expr → List Var
  | [] => []
  | e :: es => vars e ++ varsAll es
end

/-- The assignments that `ScopeVisitor` records: scope.py:298-319. Only names count, not the parts of a tuple. -/
def assigns : Stmt → List Var
  | .assign ts _ => ts
  | _ => []

/-- The accesses of a statement: names in values, and the names in tuples that are assigned to, which LibCST does not know to be targets in a
`GeneralAssignment`. -/
def reads : Stmt → List Var
  | .assign _ e => vars e
  | .unpack ts e => ts ++ vars e
  | .ret e => vars e

/-- passes.py:1138-1143, 1184-1198: whether a statement assigns a value to the temporary `x` and to nothing else. -/
def simple (x : Var) : Stmt → Option Expr
  | .assign [.tmp k] e => if x = .tmp k then some e else none
  | _ => none

/-- passes.py:1184-1198 `visit_GeneralAssignment`: the assignments to single temporaries; a later one replaces an earlier one. -/
def tracked : List Stmt → Var → Option Expr
  | [], _ => none
  | s :: ss, x =>
    match tracked ss x with
    | some e => some e
    | none => simple x s

/-- passes.py:1157-1178: which variables are folded, and their values. Targets are accesses too, except the target of the assignment itself. -/
def folded (params : List Var) (body : List Stmt) (x : Var) : Option Expr :=
  match tracked body x with
  | none => none
  | some e =>
    if (params ++ body.flatMap assigns).count x = 1 ∧ (body.flatMap fun s => assigns s ++ reads s).count x - 1 = 1 then some e else none

section
variable (v : Var → Option Expr)
mutual
/-- passes.py:1240-1246: uses are replaced by the value as it was written. Parentheses around it are left out. -/
def subst : Expr → Expr
  | .var x => (v x).getD (.var x)
  | .lit n => .lit n
  | .op f args => .op f (substAll args)
/-- `subst` in several expressions. -/
def substAll : List Expr → List Expr
  | [] => []
  | e :: es => subst e :: substAll es
end

/-- passes.py:1237-1255 `_NodeReplacer.on_leave` for a statement; `none` if it is removed. Nodes in statements other than assignments to a single name,
passes.py:1186-1198, are copies, and so not among those to replace. -/
def foldStmt : Stmt → Option Stmt
  | .assign [x] e => if (v x).isSome then none else some (.assign [x] (subst v e))
  | s => some s
end

/-- passes.py:1145-1182 `_remove_temporaries`. -/
def fold (params : List Var) (body : List Stmt) : List Stmt := body.filterMap (foldStmt (folded params body))

/-! ## Specification

What code computes: the value it returns, for every meaning of the operations and all values of the variables at its beginning.
-/

/-- Values of variables; `none` if undefined. -/
abbrev Store := Var → Option Int

section
variable (F : Nat → List Int → Option Int) (U : Int → Nat → Option Int)

mutual
/-- The value of an expression; `none` if it raises. -/
def eval (σ : Store) : Expr → Option Int
  | .var x => σ x
  | .lit n => some n
  | .op f args => (evalAll σ args).bind (F f)
/-- The values of several expressions. -/
def evalAll (σ : Store) : List Expr → Option (List Int)
  | [] => some []
  | e :: es => (eval σ e).bind fun a => (evalAll σ es).map (a :: ·)
end

/-- `x = n`. -/
def upd (σ : Store) (x : Var) (n : Int) : Store := fun y => if y = x then some n else σ y

/-- `x = y = n`. -/
def updAll (σ : Store) (ts : List Var) (n : Int) : Store := ts.foldl (fun σ x => upd σ x n) σ

/-- `x, y = value`, from part `i` on; `none` if there are too few parts. -/
def updParts (σ : Store) : List Var → Nat → Int → Option Store
  | [], _, _ => some σ
  | x :: xs, i, n => (U n i).bind fun p => updParts (upd σ x p) xs (i + 1) n

/-- What a function body returns: `some none` if it ends without `return`, and `none` if it raises. -/
def run : List Stmt → Store → Option (Option Int)
  | [], _ => some none
  | .assign ts e :: ss, σ => (eval F σ e).bind fun n => run ss (updAll σ ts n)
  | .unpack xs e :: ss, σ => (eval F σ e).bind fun n => (updParts U σ xs 0 n).bind fun σ' => run ss σ'
  | .ret e :: _, σ => (eval F σ e).map some
end

/-- The value of each folded variable, `v`, is still good wherever the variable is used: `Kept v L ss` says so of the statements `ss`, where `L` are the
folded variables that have been assigned and whose values do not mention a variable that was assigned since. No value mentions a folded variable, and they are
used in assignments to single names only. -/
inductive Kept (v : Var → Option Expr) : List Var → List Stmt → Prop
  | nil (L : List Var) : Kept v L []
  | ret {L : List Var} {e : Expr} {ss : List Stmt} : (∀ x ∈ vars e, v x = none) → Kept v L (.ret e :: ss)
  | temporary {L : List Var} {x : Var} {e : Expr} {ss : List Stmt} : v x = some e → (∀ y ∈ vars e, v y = none) → Kept v (x :: L) ss →
      Kept v L (.assign [x] e :: ss)
  | single {L M : List Var} {y : Var} {e : Expr} {ss : List Stmt} : v y = none → (∀ x ∈ vars e, v x ≠ none → x ∈ L) →
      (∀ t ∈ M, t ∈ L ∧ ∀ e', v t = some e' → y ∉ vars e') → Kept v M ss → Kept v L (.assign [y] e :: ss)
  | several {L M : List Var} {ts : List Var} {e : Expr} {ss : List Stmt} : (∀ x ∈ ts, v x = none) → (∀ x ∈ vars e, v x = none) →
      (∀ t ∈ M, t ∈ L ∧ ∀ e', v t = some e' → ∀ x ∈ ts, x ∉ vars e') → Kept v M ss → Kept v L (.assign ts e :: ss)
  | unpack {L M : List Var} {xs : List Var} {e : Expr} {ss : List Stmt} : (∀ x ∈ xs, v x = none) → (∀ x ∈ vars e, v x = none) →
      (∀ t ∈ M, t ∈ L ∧ ∀ e', v t = some e' → ∀ x ∈ xs, x ∉ vars e') → Kept v M ss → Kept v L (.unpack xs e :: ss)

/-- The names that a statement assigns, each as often as it stands there. Names in tuples are not among them. -/
def assigned : Stmt → List Var
  | .assign ts _ => ts
  | .unpack _ _ => []
  | .ret _ => []

/-- The names that a statement uses, each as often as it stands there. Names in tuples that are assigned to are among them. -/
def used : Stmt → List Var
  | .assign _ e => vars e
  | .unpack ts e => ts ++ vars e
  | .ret e => vars e

/-- `x` is folded and `e` is its value: a temporary that one statement assigns, which no other statement and no parameter assigns, and that is used once. -/
def Folds (params : List Var) (body : List Stmt) (x : Var) (e : Expr) : Prop :=
  (∃ k, x = .tmp k) ∧ .assign [x] e ∈ body ∧ (params ++ body.flatMap assigned).count x = 1 ∧ (body.flatMap used).count x = 1

/-! ## Lemmas -/

theorem count_flatMap_append (body : List Stmt) (x : Var) (f g : Stmt → List Var) :
    (body.flatMap fun s => f s ++ g s).count x = (body.flatMap f).count x + (body.flatMap g).count x := by
  induction body with
  | nil => rfl
  | cons s ss ih =>
    simp only [List.flatMap_cons, List.count_append, ih]
    omega

theorem simple_some {x : Var} {s : Stmt} {e : Expr} (h : simple x s = some e) : (∃ k, x = .tmp k) ∧ s = .assign [x] e := by
  unfold simple at h
  split at h
  · rename_i k e'
    by_cases hx : x = .tmp k
    · rw [if_pos hx] at h
      injection h with h
      subst h hx
      exact ⟨⟨k, rfl⟩, rfl⟩
    · rw [if_neg hx] at h
      cases h
  · cases h

theorem tracked_some {body : List Stmt} {x : Var} {e : Expr} (h : tracked body x = some e) : (∃ k, x = .tmp k) ∧ .assign [x] e ∈ body := by
  induction body with
  | nil => cases h
  | cons s ss ih =>
    rw [tracked] at h
    cases ht : tracked ss x with
    | some e' =>
      rw [ht] at h
      injection h with h
      subst h
      exact ⟨(ih ht).1, List.mem_cons_of_mem _ (ih ht).2⟩
    | none =>
      rw [ht] at h
      obtain ⟨h1, rfl⟩ := simple_some h
      exact ⟨h1, List.mem_cons_self⟩

theorem tracked_of_mem {body : List Stmt} {k : Nat} {e : Expr} (h : .assign [.tmp k] e ∈ body) : ∃ e', tracked body (.tmp k) = some e' := by
  induction body with
  | nil => cases h
  | cons s ss ih =>
    rw [tracked]
    cases ht : tracked ss (.tmp k) with
    | some e' => exact ⟨e', rfl⟩
    | none =>
      rcases List.mem_cons.1 h with rfl | h
      · exact ⟨e, by simp [simple]⟩
      · obtain ⟨e', he'⟩ := ih h
        rw [ht] at he'
        cases he'

theorem assign_unique {body : List Stmt} {x : Var} {e e' : Expr} (hc : (body.flatMap assigns).count x ≤ 1) (h : .assign [x] e ∈ body)
    (h' : .assign [x] e' ∈ body) : e = e' := by
  induction body with
  | nil => cases h
  | cons s ss ih =>
    rw [List.flatMap_cons, List.count_append] at hc
    have hpos : ∀ {e : Expr}, .assign [x] e ∈ ss → 1 ≤ (ss.flatMap assigns).count x := by
      intro e hm
      rw [List.one_le_count_iff]
      exact List.mem_flatMap.2 ⟨_, hm, by simp [assigns]⟩
    rcases List.mem_cons.1 h with rfl | h1
    · rcases List.mem_cons.1 h' with h2 | h2
      · injection h2 with _ h2
        exact h2.symm
      · have := hpos h2
        simp [assigns] at hc
        omega
    · rcases List.mem_cons.1 h' with rfl | h2
      · have := hpos h1
        simp [assigns] at hc
        omega
      · exact ih (by omega) h1 h2

mutual
theorem subst_none {v : Var → Option Expr} : ∀ e : Expr, (∀ x ∈ vars e, v x = none) → subst v e = e
  | .var x, h => by rw [subst, h x (by simp [vars])]; rfl
  | .lit _, _ => by rw [subst]
  | .op f args, h => by rw [subst, substAll_none args (fun x hx => h x (by rw [vars]; exact hx))]
theorem substAll_none {v : Var → Option Expr} : ∀ es : List Expr, (∀ x ∈ varsAll es, v x = none) → substAll v es = es
  | [], _ => by rw [substAll]
  | e :: es, h => by
    rw [substAll, subst_none e (fun x hx => h x (by rw [varsAll]; exact List.mem_append_left _ hx)),
      substAll_none es (fun x hx => h x (by rw [varsAll]; exact List.mem_append_right _ hx))]
end

section
variable (F : Nat → List Int → Option Int) (U : Int → Nat → Option Int)

mutual
theorem eval_congr {σ σ' : Store} : ∀ e : Expr, (∀ x ∈ vars e, σ x = σ' x) → eval F σ e = eval F σ' e
  | .var x, h => h x (by simp [vars])
  | .lit _, _ => by rw [eval, eval]
  | .op f args, h => by
    rw [eval, eval, evalAll_congr args (fun x hx => h x (by rw [vars]; exact hx))]
theorem evalAll_congr {σ σ' : Store} : ∀ es : List Expr, (∀ x ∈ varsAll es, σ x = σ' x) → evalAll F σ es = evalAll F σ' es
  | [], _ => by rw [evalAll, evalAll]
  | e :: es, h => by
    rw [evalAll, evalAll, eval_congr e (fun x hx => h x (by rw [varsAll]; exact List.mem_append_left _ hx)),
      evalAll_congr es (fun x hx => h x (by rw [varsAll]; exact List.mem_append_right _ hx))]
end

mutual
theorem eval_subst {v : Var → Option Expr} {σ σ' : Store} : ∀ e : Expr,
    (∀ x ∈ vars e, (v x = none → σ' x = σ x) ∧ ∀ t, v x = some t → eval F σ' t = σ x) → eval F σ' (subst v e) = eval F σ e
  | .var x, h => by
    obtain ⟨h1, h2⟩ := h x (by simp [vars])
    rw [subst, eval]
    cases hv : v x with
    | none => exact h1 hv
    | some t => exact h2 t hv
  | .lit _, _ => by rw [subst, eval, eval]
  | .op f args, h => by
    rw [subst, eval, eval, evalAll_subst args (fun x hx => h x (by rw [vars]; exact hx))]
theorem evalAll_subst {v : Var → Option Expr} {σ σ' : Store} : ∀ es : List Expr,
    (∀ x ∈ varsAll es, (v x = none → σ' x = σ x) ∧ ∀ t, v x = some t → eval F σ' t = σ x) → evalAll F σ' (substAll v es) = evalAll F σ es
  | [], _ => by rw [substAll, evalAll, evalAll]
  | e :: es, h => by
    rw [substAll, evalAll, evalAll, eval_subst e (fun x hx => h x (by rw [varsAll]; exact List.mem_append_left _ hx)),
      evalAll_subst es (fun x hx => h x (by rw [varsAll]; exact List.mem_append_right _ hx))]
end

theorem updAll_other (ts : List Var) (n : Int) (y : Var) : ∀ σ : Store, y ∉ ts → updAll σ ts n y = σ y := by
  induction ts with
  | nil => exact fun _ _ => rfl
  | cons t ts ih =>
    intro σ h
    unfold updAll at ih ⊢
    rw [List.foldl_cons, ih _ (fun hm => h (List.mem_cons_of_mem _ hm)), upd, if_neg (fun hh : y = t => h (hh ▸ List.mem_cons_self))]

theorem updAll_same (ts : List Var) (n : Int) (y : Var) : ∀ σ σ' : Store, σ y = σ' y → updAll σ ts n y = updAll σ' ts n y := by
  induction ts with
  | nil => exact fun _ _ h => h
  | cons t ts ih =>
    intro σ σ' h
    unfold updAll at ih ⊢
    rw [List.foldl_cons, List.foldl_cons]
    refine ih _ _ ?_
    simp only [upd]
    by_cases hy : y = t
    · simp [hy]
    · simp [hy, h]

/-- Unpacking assigns the same in both stores. -/
theorem updParts_rel (xs : List Var) : ∀ (i : Nat) (n : Int) (σ σ' τ : Store), updParts U σ xs i n = some τ →
    ∃ τ', updParts U σ' xs i n = some τ' ∧ (∀ y, σ y = σ' y → τ y = τ' y) ∧ (∀ y, y ∉ xs → τ y = σ y) ∧ (∀ y, y ∉ xs → τ' y = σ' y) := by
  induction xs with
  | nil =>
    intro i n σ σ' τ h
    rw [updParts] at h
    injection h with h
    subst h
    exact ⟨σ', rfl, fun _ h => h, fun _ _ => rfl, fun _ _ => rfl⟩
  | cons x xs ih =>
    intro i n σ σ' τ h
    rw [updParts] at h
    rw [updParts]
    cases hu : U n i with
    | none => rw [hu] at h; cases h
    | some p =>
      rw [hu] at h
      obtain ⟨τ', h1, h2, h3, h4⟩ := ih (i + 1) n (upd σ x p) (upd σ' x p) τ h
      refine ⟨τ', h1, fun y hy => h2 y ?_, fun y hy => ?_, fun y hy => ?_⟩
      · simp only [upd, hy]
      · rw [h3 y (fun hm => hy (List.mem_cons_of_mem _ hm)), upd, if_neg (fun hh : y = x => hy (hh ▸ List.mem_cons_self))]
      · rw [h4 y (fun hm => hy (List.mem_cons_of_mem _ hm)), upd, if_neg (fun hh : y = x => hy (hh ▸ List.mem_cons_self))]

theorem run_fold {v : Var → Option Expr} {L : List Var} {ss : List Stmt} (hk : Kept v L ss) : ∀ (σ σ' : Store) (r : Option Int),
    (∀ x, v x = none → σ' x = σ x) → (∀ x ∈ L, ∀ t, v x = some t → eval F σ' t = σ x) → run F U ss σ = some r →
    run F U (ss.filterMap (foldStmt v)) σ' = some r := by
  induction hk with
  | nil L => exact fun σ σ' r _ _ h => h
  | @ret L e ss hu =>
    intro σ σ' r h1 h2 h
    rw [run] at h
    rw [List.filterMap_cons, foldStmt]
    simp only []
    · rw [run, eval_congr F e (fun y hy => h1 y (hu y hy))]
      exact h
    · nofun
  | @temporary L x e ss hv hn _ ih =>
    intro σ σ' r h1 h2 h
    rw [run] at h
    rw [List.filterMap_cons, foldStmt, hv]
    simp only [Option.isSome_some, if_true]
    cases he : eval F σ e with
    | none => rw [he] at h; cases h
    | some n =>
      rw [he] at h
      have hee : eval F σ' e = some n := by
        rw [← he]
        exact eval_congr F e (fun y hy => h1 y (hn y hy))
      refine ih (updAll σ [x] n) σ' r (fun y hy => ?_) (fun y hy t ht => ?_) h
      · have hyx : y ≠ x := fun hh => by rw [hh, hv] at hy; cases hy
        rw [updAll_other [x] n y σ (by simpa using hyx)]
        exact h1 y hy
      · by_cases hyx : y = x
        · subst hyx
          rw [hv] at ht
          injection ht with ht
          subst ht
          rw [hee]
          simp [updAll, upd]
        · rw [updAll_other [x] n y σ (by simpa using hyx)]
          rcases List.mem_cons.1 hy with hh | hh
          · exact absurd hh hyx
          · exact h2 y hh t ht
  | @single L M y e ss hy hu hM _ ih =>
    intro σ σ' r h1 h2 h
    rw [run] at h
    rw [List.filterMap_cons, foldStmt, hy]
    simp only [Option.isSome_none, Bool.false_eq_true, if_false]
    rw [run, eval_subst F e (fun x hx => ⟨h1 x, fun t ht => h2 x (hu x hx (by rw [ht]; simp)) t ht⟩)]
    cases he : eval F σ e with
    | none => rw [he] at h; cases h
    | some n =>
      rw [he] at h
      simp only [Option.bind_some] at h ⊢
      refine ih _ _ r (fun z hz => updAll_same [y] n z _ _ (h1 z hz)) (fun z hz t ht => ?_) h
      obtain ⟨hzL, hzt⟩ := hM z hz
      have hzn : z ∉ [y] := fun hh => by rw [List.mem_singleton.1 hh, hy] at ht; cases ht
      rw [updAll_other [y] n z σ hzn, ← h2 z hzL t ht]
      exact eval_congr F t (fun w hw => updAll_other [y] n w σ' (fun hwt => hzt t ht (List.mem_singleton.1 hwt ▸ hw)))
  | @several L M ts e ss hts hu hM _ ih =>
    intro σ σ' r h1 h2 h
    rw [run] at h
    have hf : foldStmt v (.assign ts e) = some (.assign ts e) := by
      match ts, hts with
      | [], _ => rfl
      | [x], hts => rw [foldStmt, hts x List.mem_cons_self, subst_none e hu]; rfl
      | _ :: _ :: _, _ => rfl
    rw [List.filterMap_cons, hf]
    simp only []
    rw [run, eval_congr F e (fun y hy => h1 y (hu y hy))]
    cases he : eval F σ e with
    | none => rw [he] at h; cases h
    | some n =>
      rw [he] at h
      simp only [Option.bind_some] at h ⊢
      refine ih _ _ r (fun y hy => updAll_same ts n y _ _ (h1 y hy)) (fun y hy t ht => ?_) h
      obtain ⟨hyL, hyt⟩ := hM y hy
      have hyn : y ∉ ts := fun hh => by rw [hts y hh] at ht; cases ht
      rw [updAll_other ts n y σ hyn, ← h2 y hyL t ht]
      exact eval_congr F t (fun z hz => updAll_other ts n z σ' (fun hzt => hyt t ht z hzt hz))
  | @unpack L M xs e ss hts hu hM _ ih =>
    intro σ σ' r h1 h2 h
    rw [run] at h
    rw [List.filterMap_cons, foldStmt]
    · simp only []
      rw [run, eval_congr F e (fun y hy => h1 y (hu y hy))]
      cases he : eval F σ e with
      | none => rw [he] at h; cases h
      | some n =>
        rw [he] at h
        simp only [Option.bind_some] at h ⊢
        cases hp : updParts U σ xs 0 n with
        | none => rw [hp] at h; cases h
        | some τ =>
          rw [hp] at h
          obtain ⟨τ', h3, h4, h5, h6⟩ := updParts_rel U xs 0 n σ σ' τ hp
          rw [h3]
          simp only [Option.bind_some] at h ⊢
          refine ih _ _ r (fun y hy => (h4 y (h1 y hy).symm).symm) (fun y hy t ht => ?_) h
          obtain ⟨hyL, hyt⟩ := hM y hy
          have hyn : y ∉ xs := fun hh => by rw [hts y hh] at ht; cases ht
          rw [h5 y hyn, ← h2 y hyL t ht]
          exact eval_congr F t (fun z hz => h6 z (fun hzt => hyt t ht z hzt hz))
    · nofun
end

theorem filterMap_id {f : Stmt → Option Stmt} {ss : List Stmt} (h : ∀ s ∈ ss, f s = some s) : ss.filterMap f = ss := by
  induction ss with
  | nil => rfl
  | cons s ss ih =>
    rw [List.filterMap_cons, h s List.mem_cons_self]
    simp only []
    rw [ih (fun t ht => h t (List.mem_cons_of_mem _ ht))]

theorem folded_iff_folds (params : List Var) (body : List Stmt) (x : Var) (e : Expr) : folded params body x = some e ↔ Folds params body x e := by
  have ha : assigned = assigns := by funext s; cases s <;> rfl
  have hu : used = reads := by funext s; cases s <;> rfl
  unfold folded Folds
  rw [ha, hu]
  rw [count_flatMap_append]
  constructor
  · intro h
    cases ht : tracked body x with
    | none => rw [ht] at h; cases h
    | some e' =>
      rw [ht] at h
      simp only [] at h
      by_cases hc : (params ++ body.flatMap assigns).count x = 1 ∧
          (body.flatMap assigns).count x + (body.flatMap reads).count x - 1 = 1
      · rw [if_pos hc] at h
        injection h with h
        subst h
        obtain ⟨h1, h2⟩ := tracked_some ht
        have hpos : 1 ≤ (body.flatMap assigns).count x := by
          rw [List.one_le_count_iff]
          exact List.mem_flatMap.2 ⟨_, h2, by simp [assigns]⟩
        have hle : (body.flatMap assigns).count x ≤ 1 := by
          have := hc.1
          rw [List.count_append] at this
          omega
        exact ⟨h1, h2, hc.1, by have := hc.2; omega⟩
      · rw [if_neg hc] at h
        cases h
  · rintro ⟨⟨k, rfl⟩, h2, h3, h4⟩
    obtain ⟨e', ht⟩ := tracked_of_mem h2
    have hle : (body.flatMap assigns).count (.tmp k) ≤ 1 := by
      rw [List.count_append] at h3
      omega
    have hpos : 1 ≤ (body.flatMap assigns).count (.tmp k) := by
      rw [List.one_le_count_iff]
      exact List.mem_flatMap.2 ⟨_, h2, by simp [assigns]⟩
    have := assign_unique hle (tracked_some ht).2 h2
    subst this
    rw [ht]
    simp only []
    rw [if_pos ⟨h3, by omega⟩]

/-! ## Properties -/

/-- **C130 (partial).** Folding keeps what the code returns, for all meanings of its operations and all values of its variables: provided that between the
assignment of a folded variable and its use no variable in its value is assigned, that no value of a folded variable mentions a folded variable, and that they
are used in assignments to a single name. Missing: code where this fails, see `chain_breaks`, `reassigned_variable` and `returned_temporary`, and code with
branches and loops. -/
theorem fold_keeps_result_partial (F : Nat → List Int → Option Int) (U : Int → Nat → Option Int) (params : List Var) (body : List Stmt)
    (v : Var → Option Expr) (hv : ∀ x e, v x = some e ↔ Folds params body x e) (hk : Kept v [] body) (σ : Store) (r : Option Int)
    (h : run F U body σ = some r) : run F U (fold params body) σ = some r := by
  have : v = folded params body := by
    funext x
    cases hf : folded params body x with
    | some e => exact (hv x e).2 ((folded_iff_folds _ _ _ _).1 hf)
    | none =>
      cases hx : v x with
      | none => rfl
      | some e =>
        have := (folded_iff_folds _ _ _ _).2 ((hv x e).1 hx)
        rw [hf] at this
        cases this
  subst this
  exact run_fold F U hk σ σ r (fun _ _ => rfl) (fun _ hx => nomatch hx) h

/-- **C130.** A use is replaced, and an assignment removed, exactly for the temporaries that a single statement assigns and that are used once: a statement
is left out iff it is the assignment of such a temporary; in other assignments to a single name these temporaries are replaced by their values; and nothing
else changes. -/
theorem folded_exactly (params : List Var) (body : List Stmt) (v : Var → Option Expr) (hv : ∀ x e, v x = some e ↔ Folds params body x e) :
    fold params body = body.filterMap (fun s => match s with
      | .assign [x] e => if v x = none then some (.assign [x] (subst v e)) else none
      | s => some s) := by
  have : v = folded params body := by
    funext x
    cases hf : folded params body x with
    | some e => exact (hv x e).2 ((folded_iff_folds _ _ _ _).1 hf)
    | none =>
      cases hx : v x with
      | none => rfl
      | some e =>
        have := (folded_iff_folds _ _ _ _).2 ((hv x e).1 hx)
        rw [hf] at this
        cases this
  subst this
  unfold fold
  congr 1
  funext s
  match s with
  | .assign [x] e =>
    rw [foldStmt]
    cases hx : folded params body x <;> simp [hx]
  | .assign [] e => rfl
  | .assign (_ :: _ :: _) e => rfl
  | .unpack ts e => rfl
  | .ret e => rfl

/-- **C130.** Code in which no temporary is assigned by a single statement and used once is left as it is. -/
theorem other_code_unchanged (params : List Var) (body : List Stmt) (h : ∀ x e, ¬ Folds params body x e) : fold params body = body := by
  have hn : ∀ x, folded params body x = none := by
    intro x
    cases hf : folded params body x with
    | none => rfl
    | some e => exact absurd ((folded_iff_folds _ _ _ _).1 hf) (h x e)
  unfold fold
  have : ∀ s ∈ body, foldStmt (folded params body) s = some s := by
    intro s _
    match s with
    | .assign [x] e => rw [foldStmt, hn x, subst_none e (fun y _ => hn y)]; rfl
    | .assign [] e => rfl
    | .assign (_ :: _ :: _) e => rfl
    | .unpack ts e => rfl
    | .ret e => rfl
  exact filterMap_id this

/-! ## Deviations -/

/-- An operation for examples: operation 0 adds. -/
def plus (f : Nat) (args : List Int) : Option Int := if f = 0 then some args.sum else none

/-- **C130, deviation.** If the value of a folded variable mentions a folded variable, the code is broken: both assignments are removed, but only one use is
replaced. Isolating candidates produces such chains. `tmp_1 = 1; tmp_2 = tmp_1 + 2; x = tmp_2; return x` returns 3 and becomes `x = (tmp_1 + 2); return x`, which raises. -/
theorem chain_breaks : ∃ body : List Stmt, (∀ σ, run plus (fun _ _ => none) body σ = some (some 3)) ∧
    ∀ σ : Store, σ (.tmp 1) = none → run plus (fun _ _ => none) (fold [] body) σ = none := by
  refine ⟨[.assign [.tmp 1] (.lit 1), .assign [.tmp 2] (.op 0 [.var (.tmp 1), .lit 2]), .assign [.user "x"] (.var (.tmp 2)),
    .ret (.var (.user "x"))], fun σ => ?_, fun σ h => ?_⟩
  · rfl
  · have : fold [] [.assign [.tmp 1] (.lit 1), .assign [.tmp 2] (.op 0 [.var (.tmp 1), .lit 2]), .assign [.user "x"] (.var (.tmp 2)),
    .ret (.var (.user "x"))] =
        [.assign [.user "x"] (.op 0 [.var (.tmp 1), .lit 2]), .ret (.var (.user "x"))] := rfl
    rw [this]
    simp [run, eval, evalAll, h]

/-- **C130, deviation.** If a variable in the value is assigned before the use, the code computes something else: `tmp_1 = x; x = 5; y = tmp_1; return y`
returns the old value of `x` and becomes `x = 5; y = (x); return y`. -/
theorem reassigned_variable : ∃ body : List Stmt, ∀ (σ : Store) (n : Int), σ (.user "x") = some n →
    run plus (fun _ _ => none) body σ = some (some n) ∧ run plus (fun _ _ => none) (fold [] body) σ = some (some 5) := by
  refine ⟨[.assign [.tmp 1] (.var (.user "x")), .assign [.user "x"] (.lit 5), .assign [.user "y"] (.var (.tmp 1)),
    .ret (.var (.user "y"))], fun σ n h => ⟨?_, ?_⟩⟩
  · simp [run, eval, updAll, upd, h]
  · have : fold [] [.assign [.tmp 1] (.var (.user "x")), .assign [.user "x"] (.lit 5), .assign [.user "y"] (.var (.tmp 1)),
    .ret (.var (.user "y"))] =
        [.assign [.user "x"] (.lit 5), .assign [.user "y"] (.var (.user "x")), .ret (.var (.user "y"))] := rfl
    rw [this]
    simp [run, eval, updAll, upd]

/-- **C130, deviation.** A temporary that is used once, but not in an assignment to a single name, loses its assignment and keeps its use:
`tmp_1 = e; return tmp_1` becomes `return tmp_1`, which raises, whatever `e` is. -/
theorem returned_temporary (F : Nat → List Int → Option Int) (U : Int → Nat → Option Int) (k : Nat) (e : Expr) (he : .tmp k ∉ vars e) (σ : Store)
    (hσ : σ (.tmp k) = none) (n : Int) (hn : eval F σ e = some n) :
    run F U [.assign [.tmp k] e, .ret (.var (.tmp k))] σ = some (some n) ∧
      fold [] [.assign [.tmp k] e, .ret (.var (.tmp k))] = [.ret (.var (.tmp k))] ∧
      run F U (fold [] [.assign [.tmp k] e, .ret (.var (.tmp k))]) σ = none := by
  have hf : folded [] [.assign [.tmp k] e, .ret (.var (.tmp k))] (.tmp k) = some e := by
    rw [folded_iff_folds]
    refine ⟨⟨k, rfl⟩, by simp, by simp [assigned], ?_⟩
    have : (vars e).count (.tmp k) = 0 := List.count_eq_zero.2 he
    simp [used, vars, this]
  have hfold : fold [] [.assign [.tmp k] e, .ret (.var (.tmp k))] = [.ret (.var (.tmp k))] := by
    unfold fold
    rw [List.filterMap_cons, foldStmt, hf]
    rfl
  refine ⟨?_, hfold, ?_⟩
  · simp [run, hn, eval, updAll, upd]
  · rw [hfold]
    simp [run, eval, hσ]

/-! ## Concrete cases -/

/-- `tmp_1 = x + y; z = 5; result = tmp_1 + z; return result`, as in passes.py:1109-1114. -/
def sample : List Stmt :=
  [.assign [.tmp 1] (.op 0 [.var (.user "x"), .var (.user "y")]), .assign [.user "z"] (.lit 5),
    .assign [.user "result"] (.op 0 [.var (.tmp 1), .var (.user "z")]), .ret (.var (.user "result"))]

example : fold [] sample = [.assign [.user "z"] (.lit 5),
    .assign [.user "result"] (.op 0 [.op 0 [.var (.user "x"), .var (.user "y")], .var (.user "z")]), .ret (.var (.user "result"))] := rfl
/-- Assigned twice, used twice, or a parameter: nothing is folded. -/
example : fold [] [.assign [.tmp 1] (.lit 1), .assign [.tmp 1] (.lit 2), .ret (.var (.tmp 1))] =
    [.assign [.tmp 1] (.lit 1), .assign [.tmp 1] (.lit 2), .ret (.var (.tmp 1))] := rfl
example : fold [] [.assign [.tmp 1] (.lit 1), .assign [.user "x"] (.op 0 [.var (.tmp 1), .var (.tmp 1)])] =
    [.assign [.tmp 1] (.lit 1), .assign [.user "x"] (.op 0 [.var (.tmp 1), .var (.tmp 1)])] := rfl
example : fold [.tmp 1] [.assign [.tmp 1] (.lit 1), .ret (.var (.tmp 1))] = [.assign [.tmp 1] (.lit 1), .ret (.var (.tmp 1))] := rfl

/-- The hypotheses of `fold_keeps_result_partial` hold for `sample`. -/
example : ∃ v, (∀ x e, v x = some e ↔ Folds [] sample x e) ∧ Kept v [] sample := by
  refine ⟨folded [] sample, fun x e => folded_iff_folds _ _ _ _, ?_⟩
  refine .temporary rfl (by decide) (.single (M := [.tmp 1]) rfl (by decide) ?_ (.single (M := []) rfl (by decide) (nofun) (.ret (by decide))))
  intro t ht
  rw [List.mem_singleton] at ht
  subst ht
  refine ⟨by simp, fun e' he' => ?_⟩
  have : folded [] sample (.tmp 1) = some (.op 0 [.var (.user "x"), .var (.user "y")]) := rfl
  rw [this] at he'
  injection he' with he'
  subst he'
  decide

end FF.FoldTemps
