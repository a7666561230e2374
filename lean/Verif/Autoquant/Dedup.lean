import Mathlib.Data.List.Basic
import Mathlib.Data.List.Nodup
import Mathlib.Data.List.Perm.Subperm
import Mathlib.Logic.Function.Basic

/-!
# Sharing the results of repeated quantizer calls

Models `_QuantizerCallDedup` of `_autoquant/cst/quantizer_analysis/transformer.py`, on one block of statements.
-/

namespace FF.Dedup

/-! ## Model -/

/-- A variable: `_tmp_<n>`, or any other. -/
inductive Var
  | user (n : ℕ)
  | tmp (n : ℕ)
  deriving DecidableEq

/-- An expression: a variable, a call `self.quantizer…(e)` of the quantizer with identity `r`, or anything else made of expressions.
Comprehensions, whose inside is not looked at (`transformer.py:764-778`), are left out. -/
inductive Expr
  | var (x : Var)
  | quant (r : ℕ) (e : Expr)
  | op (f : ℕ) (a b : Expr)
  deriving DecidableEq

/-- The key of a quantizer call (`transformer.py:678-701` `_call_key`): the quantizer and the code of the call. -/
abbrev Key := ℕ × Expr

/-- The call that a key stands for. -/
def Key.call (k : Key) : Expr := .quant k.1 k.2

/-- The variables of an expression. -/
def Expr.vars : Expr → List Var
  | .var x => [x]
  | .quant _ e => e.vars
  | .op _ a b => a.vars ++ b.vars

/-- `transformer.py:780-788` `visit_Call`: the quantizer calls in an expression, outer before inner. -/
def Expr.calls : Expr → List Key
  | .var _ => []
  | .quant r e => (r, e) :: e.calls
  | .op _ a b => a.calls ++ b.calls

/-- `transformer.py:821-827` `_ReplaceCall`: calls are replaced by the variables that `σ` gives for their keys. The key is that of the call before
calls in it are replaced. -/
def Expr.replace (σ : Key → Option Var) : Expr → Expr
  | .var x => .var x
  | .quant r e =>
    match σ (r, e) with
    | some t => .var t
    | none => .quant r (e.replace σ)
  | .op f a b => .op f (a.replace σ) (b.replace σ)

section

variable (Val : Type)

/-- The values of variables. -/
abbrev Env := Var → Val

/-- A nested block, which is not looked at here (`transformer.py:760-762`), as any relation between a value it is given (that of
the condition, or what is iterated over), the environments before and after, and the value it returns, if it does. It reads and
writes its names only. -/
structure Body where
  run : Val → Env Val → Env Val → Option Val → Prop
  names : List Var
  writes : List Var
  writes_sub : ∀ x ∈ writes, x ∈ names
  frame : ∀ v ρ ρ' o, run v ρ ρ' o → ∀ x, x ∉ writes → ρ' x = ρ x
  respects : ∀ v ρ ρ' o ρ₁, run v ρ ρ' o → (∀ x ∈ names, ρ₁ x = ρ x) → ∃ ρ₁', run v ρ₁ ρ₁' o ∧ ∀ x ∈ names, ρ₁' x = ρ' x

/-- A statement: an assignment, `return`, a statement that evaluates an expression and then runs a block (`if`, `for`, `with`), or
`while`. `break` and `continue` are left out. -/
inductive Stmt
  | assign (x : Var) (e : Expr)
  | ret (e : Expr)
  | branch (e : Expr) (body : Body Val)
  | loop (e : Expr) (body : Body Val)

end

variable {Val : Type}

/-- The expression that belongs to the block itself. -/
def Stmt.head : Stmt Val → Expr
  | .assign _ e => e
  | .ret e => e
  | .branch e _ => e
  | .loop e _ => e

/-- The names in a statement, nested blocks included. -/
def Stmt.names : Stmt Val → List Var
  | .assign x e => x :: e.vars
  | .ret e => e.vars
  | .branch e b => e.vars ++ b.names
  | .loop e b => e.vars ++ b.names

/-- `transformer.py:829-833`: a statement with its calls replaced. -/
def Stmt.replace (σ : Key → Option Var) : Stmt Val → Stmt Val
  | .assign x e => .assign x (e.replace σ)
  | .ret e => .ret (e.replace σ)
  | .branch e b => .branch (e.replace σ) b
  | .loop e b => .loop (e.replace σ) b

/-- All quantizer calls of a block, in order (`transformer.py:755-790`). -/
def callsOf (b : List (Stmt Val)) : List Key := b.flatMap fun s => s.head.calls

/-- The keys in order of their first occurrence (`counts`, a dictionary). -/
def firsts : List Key → List Key
  | [] => []
  | k :: ks => k :: (firsts ks).filter (· ≠ k)

/-- `transformer.py:792` `repeated_keys`. -/
def repeated (b : List (Stmt Val)) : List Key := (firsts (callsOf b)).filter fun k => decide (1 < (callsOf b).count k)

/-- `transformer.py:739-749`: the suffixes of the names `_tmp_<n>` in the block. -/
def suffixes (b : List (Stmt Val)) : List ℕ :=
  b.flatMap fun s => s.names.filterMap fun
    | .tmp n => some n
    | .user _ => none

/-- `transformer.py:713-719` `_next_tmp_name`: the least suffix from 1 on that is not taken. -/
def nextFree (used : List ℕ) : ℕ := ((List.range' 1 (used.length + 1)).find? fun n => decide (n ∉ used)).getD 0

/-- `transformer.py:796` `temp_by_call`. -/
def temps (used : List ℕ) : List Key → List (Key × Var)
  | [] => []
  | k :: ks => (k, .tmp (nextFree used)) :: temps (nextFree used :: used) ks

/-- Look up in `temp_by_call`. -/
def look (ts : List (Key × Var)) (k : Key) : Option Var := (ts.find? fun t => decide (t.1 = k)).map (·.2)

/-- `transformer.py:785-787`: the index of the first statement with a call. -/
def firstIdx (b : List (Stmt Val)) (k : Key) : ℕ := b.findIdx fun s => decide (k ∈ s.head.calls)

/-- `transformer.py:829-854`: statements with their calls replaced, and before each the assignments of the calls that occur in it first. -/
def rebuild (ts : List (Key × Var)) (first : Key → ℕ) : ℕ → List (Stmt Val) → List (Stmt Val)
  | _, [] => []
  | j, s :: b =>
    (ts.filter fun t => decide (first t.1 = j)).map (fun t => .assign t.2 t.1.call) ++ s.replace (look ts) :: rebuild ts first (j + 1) b

/-- `transformer.py:721-856` `leave_IndentedBlock`, for one block and a transformer that has created no names yet. It runs for each block when the
block is left (`transformer.py:264-290`, `859-864`) and once more for all blocks of a function (`transformer.py:234-239`). -/
def dedup (b : List (Stmt Val)) : List (Stmt Val) :=
  if repeated b = [] then b
  else rebuild (temps (suffixes b) (repeated b)) (firstIdx b) 0 b

/-! ## Specification -/

/-- What quantizers and other operations compute, and which values count as true. -/
structure Sem (Val : Type) where
  quant : ℕ → Val → Val
  op : ℕ → Val → Val → Val
  truthy : Val → Bool

/-- The value of an expression. -/
def eval (S : Sem Val) (ρ : Env Val) : Expr → Val
  | .var x => ρ x
  | .quant r e => S.quant r (eval S ρ e)
  | .op f a b => S.op f (eval S ρ a) (eval S ρ b)

/-- Running a statement: the environments before and after, and the value returned, if any. -/
inductive Exec (S : Sem Val) : Stmt Val → Env Val → Env Val → Option Val → Prop
  | assign {x e ρ} : Exec S (.assign x e) ρ (Function.update ρ x (eval S ρ e)) none
  | ret {e ρ} : Exec S (.ret e) ρ ρ (some (eval S ρ e))
  | branch {e b ρ ρ' o} : b.run (eval S ρ e) ρ ρ' o → Exec S (.branch e b) ρ ρ' o
  | loopEnd {e b ρ} : S.truthy (eval S ρ e) = false → Exec S (.loop e b) ρ ρ none
  | loopStep {e b ρ ρ₁ ρ' o} : S.truthy (eval S ρ e) = true → b.run (eval S ρ e) ρ ρ₁ none → Exec S (.loop e b) ρ₁ ρ' o →
      Exec S (.loop e b) ρ ρ' o
  | loopExit {e b ρ ρ' v} : S.truthy (eval S ρ e) = true → b.run (eval S ρ e) ρ ρ' (some v) → Exec S (.loop e b) ρ ρ' (some v)

/-- Running a block. -/
inductive ExecAll (S : Sem Val) : List (Stmt Val) → Env Val → Env Val → Option Val → Prop
  | nil {ρ} : ExecAll S [] ρ ρ none
  | stop {s b ρ ρ' v} : Exec S s ρ ρ' (some v) → ExecAll S (s :: b) ρ ρ' (some v)
  | cons {s b ρ ρ₁ ρ' o} : Exec S s ρ ρ₁ none → ExecAll S b ρ₁ ρ' o → ExecAll S (s :: b) ρ ρ' o

/-- The variables that a statement may assign. -/
def Stmt.writes : Stmt Val → List Var
  | .assign x _ => [x]
  | .ret _ => []
  | .branch _ b => b.writes
  | .loop _ b => b.writes

/-- How often a quantizer call occurs in an expression. -/
def occ (k : Key) : Expr → ℕ
  | .var _ => 0
  | .quant r e => (if (r, e) = k then 1 else 0) + occ k e
  | .op _ a b => occ k a + occ k b

/-- How often a quantizer call occurs in a block, nested blocks left out. -/
def occB (k : Key) : List (Stmt Val) → ℕ
  | [] => 0
  | s :: b => occ k s.head + occB k b

/-- Between two occurrences of a quantizer call, none of its variables is assigned. -/
def Stable (b : List (Stmt Val)) : Prop :=
  ∀ pre s post, b = pre ++ s :: post → ∀ k, 0 < occB k (pre ++ [s]) → 0 < occB k post → ∀ x ∈ s.writes, x ∉ k.2.vars

/-- No `while` loop assigns variables of a repeated call in its condition. -/
def StableLoops (b : List (Stmt Val)) : Prop :=
  ∀ e body, Stmt.loop e body ∈ b → ∀ k, 0 < occ k e → 1 < occB k b → ∀ x ∈ body.writes, x ∉ k.2.vars

/-- The environments agree on all names of the block and on all variables that are not of the form `_tmp_<n>`. -/
def SameFor (b : List (Stmt Val)) (ρ ρ' : Env Val) : Prop :=
  (∀ n, ρ (.user n) = ρ' (.user n)) ∧ ∀ s ∈ b, ∀ x ∈ s.names, ρ x = ρ' x

/-! ## Lemmas -/

theorem occ_eq (k : Key) (e : Expr) : occ k e = e.calls.count k := by
  induction e with
  | var x => rfl
  | quant r e ih =>
    simp only [occ, Expr.calls, List.count_cons, ih, beq_iff_eq]
    omega
  | op f a b iha ihb => simp only [occ, Expr.calls, List.count_append, iha, ihb]

theorem occB_eq (k : Key) (b : List (Stmt Val)) : occB k b = (callsOf b).count k := by
  induction b with
  | nil => rfl
  | cons s b ih => simp only [occB, callsOf, List.flatMap_cons, List.count_append, occ_eq, ih]

theorem occ_pos (k : Key) (e : Expr) : 0 < occ k e ↔ k ∈ e.calls := by
  rw [occ_eq, List.count_pos_iff]

theorem occB_pos (k : Key) (b : List (Stmt Val)) : 0 < occB k b ↔ k ∈ callsOf b := by
  rw [occB_eq, List.count_pos_iff]

theorem mem_firsts (ks : List Key) (k : Key) : k ∈ firsts ks ↔ k ∈ ks := by
  induction ks with
  | nil => simp [firsts]
  | cons a ks ih =>
    simp only [firsts, List.mem_cons, List.mem_filter, ih, decide_eq_true_eq, ne_eq]
    by_cases h : k = a <;> simp [h]

theorem nodup_firsts (ks : List Key) : (firsts ks).Nodup := by
  induction ks with
  | nil => simp [firsts]
  | cons a ks ih =>
    simp only [firsts, List.nodup_cons, List.mem_filter]
    exact ⟨by simp, ih.filter _⟩

theorem mem_repeated (b : List (Stmt Val)) (k : Key) : k ∈ repeated b ↔ 1 < occB k b := by
  rw [repeated, List.mem_filter, mem_firsts, occB_eq, decide_eq_true_eq, ← List.count_pos_iff]
  omega

theorem nodup_repeated (b : List (Stmt Val)) : (repeated b).Nodup := (nodup_firsts _).filter _

theorem nextFree_fresh (used : List ℕ) : nextFree used ∉ used := by
  unfold nextFree
  cases h : (List.range' 1 (used.length + 1)).find? fun n => decide (n ∉ used) with
  | none =>
    exfalso
    rw [List.find?_eq_none] at h
    have hs : List.range' 1 (used.length + 1) ⊆ used := fun n hn => by simpa using h n hn
    have := (List.nodup_range' (s := 1) (n := used.length + 1)).subperm hs |>.length_le
    simp only [List.length_range'] at this
    omega
  | some n => simpa using List.find?_some h

theorem temps_keys (used : List ℕ) (ks : List Key) : (temps used ks).map (·.1) = ks := by
  induction ks generalizing used with
  | nil => rfl
  | cons k ks ih => simp [temps, ih]

theorem temps_fresh (used : List ℕ) (ks : List Key) : ∀ t ∈ temps used ks, ∃ n, t.2 = .tmp n ∧ n ∉ used := by
  induction ks generalizing used with
  | nil => simp [temps]
  | cons k ks ih =>
    intro t ht
    rcases List.mem_cons.1 ht with rfl | ht
    · exact ⟨_, rfl, nextFree_fresh used⟩
    · obtain ⟨n, h, hn⟩ := ih _ t ht
      exact ⟨n, h, fun h => hn (List.mem_cons_of_mem _ h)⟩

theorem temps_nodup (used : List ℕ) (ks : List Key) : ((temps used ks).map (·.2)).Nodup := by
  induction ks generalizing used with
  | nil => simp [temps]
  | cons k ks ih =>
    simp only [temps, List.map_cons, List.nodup_cons]
    refine ⟨?_, ih _⟩
    intro h
    obtain ⟨t, ht, he⟩ := List.mem_map.1 h
    obtain ⟨n, h, hn⟩ := temps_fresh _ _ t ht
    rw [h] at he
    cases he
    exact hn (List.mem_cons_self ..)

/-- What is needed of the variables that are introduced. -/
structure Good (b : List (Stmt Val)) (ts : List (Key × Var)) : Prop where
  keys : ∀ k, (∃ t, (k, t) ∈ ts) ↔ 1 < occB k b
  keysNodup : (ts.map (·.1)).Nodup
  varsNodup : (ts.map (·.2)).Nodup
  fresh : ∀ t ∈ ts, ∀ s ∈ b, t.2 ∉ s.names
  isTmp : ∀ t ∈ ts, ∃ n, t.2 = .tmp n

theorem good_temps (b : List (Stmt Val)) : Good b (temps (suffixes b) (repeated b)) where
  keys k := by
    have h := temps_keys (suffixes b) (repeated b)
    generalize temps (suffixes b) (repeated b) = ts at h ⊢
    rw [← mem_repeated, ← h]
    simp
  keysNodup := by rw [temps_keys]; exact nodup_repeated b
  varsNodup := temps_nodup _ _
  fresh t ht s hs hx := by
    obtain ⟨n, h, hn⟩ := temps_fresh _ _ t ht
    apply hn
    rw [suffixes, List.mem_flatMap]
    exact ⟨s, hs, List.mem_filterMap.2 ⟨_, hx, by rw [h]⟩⟩
  isTmp t ht := by
    obtain ⟨n, h, -⟩ := temps_fresh _ _ t ht
    exact ⟨n, h⟩

theorem look_some {ts : List (Key × Var)} {k : Key} {t : Var} (h : look ts k = some t) : (k, t) ∈ ts := by
  unfold look at h
  obtain ⟨p, hp, rfl⟩ := Option.map_eq_some_iff.1 h
  have h1 := List.find?_some hp
  have h2 := List.mem_of_find?_eq_some hp
  simp only [decide_eq_true_eq] at h1
  rw [← h1]
  exact h2

theorem look_none {ts : List (Key × Var)} {k : Key} : look ts k = none ↔ ∀ t, (k, t) ∉ ts := by
  unfold look
  rw [Option.map_eq_none_iff, List.find?_eq_none]
  constructor
  · intro h t ht
    simpa using h _ ht
  · rintro h ⟨k', t⟩ ht
    simp only [decide_eq_true_eq]
    rintro rfl
    exact h _ ht

theorem eval_congr (S : Sem Val) {ρ ρ' : Env Val} {e : Expr} (h : ∀ x ∈ e.vars, ρ x = ρ' x) : eval S ρ e = eval S ρ' e := by
  induction e with
  | var x => exact h x (by simp [Expr.vars])
  | quant r e ih => simp only [eval]; rw [ih h]
  | op f a b iha ihb =>
    simp only [eval]
    rw [iha fun x hx => h x (by simp [Expr.vars, hx]), ihb fun x hx => h x (by simp [Expr.vars, hx])]

/-- Agreement except at the variables of `ts`. -/
def Agree (ts : List (Key × Var)) (ρ ρ₁ : Env Val) : Prop := ∀ x, (∀ t ∈ ts, t.2 ≠ x) → ρ x = ρ₁ x

/-- The introduced variables have the values of the calls with property `P`. -/
def Holds (S : Sem Val) (ts : List (Key × Var)) (P : Key → Prop) (ρ ρ₁ : Env Val) : Prop :=
  ∀ t ∈ ts, P t.1 → ρ₁ t.2 = eval S ρ t.1.call

theorem eval_replace {S : Sem Val} {ts : List (Key × Var)} {ρ ρ₁ : Env Val} {e : Expr} (ha : Agree ts ρ ρ₁)
    (hv : ∀ t ∈ ts, t.2 ∉ e.vars) (hh : Holds S ts (· ∈ e.calls) ρ ρ₁) : eval S ρ₁ (e.replace (look ts)) = eval S ρ e := by
  induction e with
  | var x =>
    refine (ha x fun t ht h => hv t ht ?_).symm
    rw [h]
    simp [Expr.vars]
  | quant r e ih =>
    simp only [Expr.replace]
    cases h : look ts (r, e) with
    | some t => exact hh _ (look_some h) (by simp [Expr.calls])
    | none =>
      simp only [eval]
      rw [ih hv fun t ht hk => hh t ht (by simp [Expr.calls, hk])]
  | op f a b iha ihb =>
    simp only [Expr.replace, eval]
    rw [iha (fun t ht h => hv t ht (by simp [Expr.vars, h])) fun t ht hk => hh t ht (by simp [Expr.calls, hk]),
      ihb (fun t ht h => hv t ht (by simp [Expr.vars, h])) fun t ht hk => hh t ht (by simp [Expr.calls, hk])]

theorem Agree.symm {ts : List (Key × Var)} {ρ ρ₁ : Env Val} (h : Agree ts ρ ρ₁) : Agree ts ρ₁ ρ := fun x hx => (h x hx).symm

theorem body_sim {ts : List (Key × Var)} {b : Body Val} {v : Val} {ρ ρ' ρ₁ : Env Val} {o : Option Val} (ha : Agree ts ρ ρ₁)
    (hn : ∀ t ∈ ts, t.2 ∉ b.names) (h : b.run v ρ ρ' o) :
    ∃ ρ₁', b.run v ρ₁ ρ₁' o ∧ Agree ts ρ' ρ₁' ∧ ∀ t ∈ ts, ρ₁' t.2 = ρ₁ t.2 := by
  obtain ⟨ρ₁', hr, hs⟩ := b.respects v ρ ρ' o ρ₁ h fun x hx => (ha x fun t ht he => hn t ht (he ▸ hx)).symm
  refine ⟨ρ₁', hr, fun x hx => ?_, fun t ht => b.frame _ _ _ _ hr _ fun hw => hn t ht (b.writes_sub _ hw)⟩
  by_cases hm : x ∈ b.names
  · exact (hs x hm).symm
  · rw [b.frame _ _ _ _ h x fun hw => hm (b.writes_sub x hw), b.frame _ _ _ _ hr x fun hw => hm (b.writes_sub x hw)]
    exact ha x hx

theorem exec_frame {S : Sem Val} {s : Stmt Val} {ρ ρ' : Env Val} {o : Option Val} (h : Exec S s ρ ρ' o) : ∀ x, x ∉ s.writes → ρ' x = ρ x := by
  induction h with
  | assign => intro x hx; rw [Function.update_of_ne]; simpa [Stmt.writes] using hx
  | ret => intro x _; rfl
  | branch h => exact Body.frame _ _ _ _ _ h
  | loopEnd => intro x _; rfl
  | loopStep _ h _ ih => intro x hx; rw [ih x hx]; exact Body.frame _ _ _ _ _ h x hx
  | loopExit _ h => exact Body.frame _ _ _ _ _ h

theorem loop_sim {S : Sem Val} {b : Body Val} {e e' : Expr} (R : Env Val → Env Val → Prop) (he : ∀ ρ ρ₁, R ρ ρ₁ → eval S ρ e = eval S ρ₁ e')
    (hb : ∀ v ρ ρ' o ρ₁, R ρ ρ₁ → b.run v ρ ρ' o → ∃ ρ₁', b.run v ρ₁ ρ₁' o ∧ R ρ' ρ₁') {s : Stmt Val} {ρ ρ' ρ₁ : Env Val} {o : Option Val}
    (h : Exec S s ρ ρ' o) (hs : s = .loop e b) (hR : R ρ ρ₁) : ∃ ρ₁', Exec S (.loop e' b) ρ₁ ρ₁' o ∧ R ρ' ρ₁' := by
  induction h generalizing ρ₁ with
  | assign => cases hs
  | ret => cases hs
  | branch => cases hs
  | loopEnd ht =>
    cases hs
    rw [he _ _ hR] at ht
    exact ⟨_, .loopEnd ht, hR⟩
  | loopStep ht hr _ ih =>
    cases hs
    obtain ⟨ρ₂, h2, hR2⟩ := hb _ _ _ _ _ hR hr
    obtain ⟨ρ₃, h3, hR3⟩ := ih rfl hR2
    rw [he _ _ hR] at ht h2
    exact ⟨_, .loopStep ht h2 h3, hR3⟩
  | loopExit ht hr =>
    cases hs
    obtain ⟨ρ₂, h2, hR2⟩ := hb _ _ _ _ _ hR hr
    rw [he _ _ hR] at ht h2
    exact ⟨_, .loopExit ht h2, hR2⟩

theorem head_vars {s : Stmt Val} {x : Var} (h : x ∈ s.head.vars) : x ∈ s.names := by
  cases s <;> simp_all [Stmt.head, Stmt.names]

/-- What a statement needs for its calls to be replaced. -/
structure Ready (S : Sem Val) (ts : List (Key × Var)) (s : Stmt Val) : Prop where
  fresh : ∀ t ∈ ts, t.2 ∉ s.names
  loops : ∀ e b, s = .loop e b → ∀ t ∈ ts, t.1 ∈ e.calls → ∀ x ∈ b.writes, x ∉ t.1.2.vars

theorem Agree.update {ts : List (Key × Var)} {ρ ρ₁ : Env Val} (h : Agree ts ρ ρ₁) (x : Var) (v : Val) :
    Agree ts (Function.update ρ x v) (Function.update ρ₁ x v) := by
  intro y hy
  by_cases he : y = x
  · subst he; simp
  · rw [Function.update_of_ne he, Function.update_of_ne he]; exact h y hy

theorem loop_rel {S : Sem Val} {ts : List (Key × Var)} {e : Expr} {b : Body Val} (hr : Ready S ts (.loop e b)) {v : Val} {ρ ρ' ρ₁ ρ₁' : Env Val}
    {o o' : Option Val} (h : b.run v ρ ρ' o) (hh : Holds S ts (· ∈ e.calls) ρ ρ₁) (h₁ : b.run v ρ₁ ρ₁' o') :
    Holds S ts (· ∈ e.calls) ρ' ρ₁' := by
  intro t ht hk
  rw [b.frame _ _ _ _ h₁ _ fun hw => hr.fresh t ht (by simp [Stmt.names, b.writes_sub _ hw]), hh t ht hk]
  refine eval_congr S fun x hx => (b.frame _ _ _ _ h x fun hw => ?_).symm
  exact hr.loops e b rfl t ht hk x hw hx

theorem stmt_fwd {S : Sem Val} {ts : List (Key × Var)} {s : Stmt Val} (hr : Ready S ts s) {ρ ρ' ρ₁ : Env Val} {o : Option Val}
    (ha : Agree ts ρ ρ₁) (hh : Holds S ts (· ∈ s.head.calls) ρ ρ₁) (h : Exec S s ρ ρ' o) :
    ∃ ρ₁', Exec S (s.replace (look ts)) ρ₁ ρ₁' o ∧ Agree ts ρ' ρ₁' := by
  cases s with
  | assign x e =>
    cases h
    have he := eval_replace ha (fun t ht h => hr.fresh t ht (head_vars h)) hh
    refine ⟨_, .assign, ?_⟩
    rw [show eval S ρ₁ (e.replace (look ts)) = eval S ρ e from he]
    exact ha.update _ _
  | ret e =>
    cases h
    have he := eval_replace ha (fun t ht h => hr.fresh t ht (head_vars h)) hh
    refine ⟨ρ₁, ?_, ha⟩
    rw [show eval S ρ e = eval S ρ₁ (e.replace (look ts)) from he.symm]
    exact .ret
  | branch e b =>
    have he := eval_replace ha (fun t ht h => hr.fresh t ht (head_vars h)) hh
    cases h with
    | branch h =>
      obtain ⟨ρ₁', h1, h2, -⟩ := body_sim ha (fun t ht h => hr.fresh t ht (by simp [Stmt.names, h])) h
      refine ⟨ρ₁', .branch ?_, h2⟩
      rw [show eval S ρ₁ (e.replace (look ts)) = eval S ρ e from he]
      exact h1
  | loop e b =>
    obtain ⟨ρ₁', h1, h2, -⟩ := loop_sim (e' := e.replace (look ts)) (fun ρ ρ₁ => Agree ts ρ ρ₁ ∧ Holds S ts (· ∈ e.calls) ρ ρ₁)
      (fun ρ ρ₁ hR => (eval_replace hR.1 (fun t ht h => hr.fresh t ht (by simp [Stmt.names, h])) hR.2).symm)
      (fun v ρ ρ' o ρ₁ hR h => by
        obtain ⟨ρ₁', h1, h2, -⟩ := body_sim hR.1 (fun t ht h => hr.fresh t ht (by simp [Stmt.names, h])) h
        exact ⟨ρ₁', h1, h2, loop_rel hr h hR.2 h1⟩) h rfl ⟨ha, hh⟩
    exact ⟨ρ₁', h1, h2⟩

theorem stmt_bwd {S : Sem Val} {ts : List (Key × Var)} {s : Stmt Val} (hr : Ready S ts s) {ρ ρ₁' ρ₁ : Env Val} {o : Option Val}
    (ha : Agree ts ρ ρ₁) (hh : Holds S ts (· ∈ s.head.calls) ρ ρ₁) (h : Exec S (s.replace (look ts)) ρ₁ ρ₁' o) :
    ∃ ρ', Exec S s ρ ρ' o ∧ Agree ts ρ' ρ₁' := by
  cases s with
  | assign x e =>
    cases h
    have he := eval_replace ha (fun t ht h => hr.fresh t ht (head_vars h)) hh
    refine ⟨_, .assign, ?_⟩
    rw [show eval S ρ₁ (e.replace (look ts)) = eval S ρ e from he]
    exact ha.update _ _
  | ret e =>
    cases h
    have he := eval_replace ha (fun t ht h => hr.fresh t ht (head_vars h)) hh
    refine ⟨ρ, ?_, ha⟩
    rw [show eval S ρ₁' (e.replace (look ts)) = eval S ρ e from he]
    exact .ret
  | branch e b =>
    have he := eval_replace ha (fun t ht h => hr.fresh t ht (head_vars h)) hh
    cases h with
    | branch h =>
      obtain ⟨ρ', h1, h2, -⟩ := body_sim ha.symm (fun t ht h => hr.fresh t ht (by simp [Stmt.names, h])) h
      refine ⟨ρ', .branch ?_, h2.symm⟩
      rw [show eval S ρ e = eval S ρ₁ (e.replace (look ts)) from he.symm]
      exact h1
  | loop e b =>
    obtain ⟨ρ', h1, h2, -⟩ := loop_sim (e' := e) (fun ρ₁ ρ => Agree ts ρ ρ₁ ∧ Holds S ts (· ∈ e.calls) ρ ρ₁)
      (fun ρ₁ ρ hR => eval_replace hR.1 (fun t ht h => hr.fresh t ht (by simp [Stmt.names, h])) hR.2)
      (fun v ρ₁ ρ₁' o ρ hR h => by
        obtain ⟨ρ', h1, h2, -⟩ := body_sim hR.1.symm (fun t ht h => hr.fresh t ht (by simp [Stmt.names, h])) h
        exact ⟨ρ', h1, h2.symm, loop_rel hr h1 hR.2 h⟩) h rfl ⟨ha, hh⟩
    exact ⟨ρ', h1, h2⟩

theorem calls_vars {e : Expr} {k : Key} (h : k ∈ e.calls) : ∀ x ∈ k.2.vars, x ∈ e.vars := by
  induction e with
  | var x => simp [Expr.calls] at h
  | quant r e ih =>
    rcases List.mem_cons.1 h with rfl | h
    · exact fun x hx => hx
    · exact ih h
  | op f a b iha ihb =>
    intro x hx
    simp only [Expr.vars, List.mem_append]
    rcases List.mem_append.1 h with h | h
    · exact .inl (iha h x hx)
    · exact .inr (ihb h x hx)

theorem mem_callsOf {b : List (Stmt Val)} {k : Key} : k ∈ callsOf b ↔ ∃ s ∈ b, k ∈ s.head.calls := by
  simp [callsOf, List.mem_flatMap]

theorem Good.mem {b : List (Stmt Val)} {ts : List (Key × Var)} (g : Good b ts) {t : Key × Var} (ht : t ∈ ts) : t.1 ∈ callsOf b := by
  rw [← occB_pos]
  exact Nat.lt_of_lt_of_le (by decide) (Nat.le_of_lt ((g.keys t.1).1 ⟨t.2, ht⟩))

theorem Good.vars {b : List (Stmt Val)} {ts : List (Key × Var)} (g : Good b ts) {t t' : Key × Var} (ht : t ∈ ts) (ht' : t' ∈ ts) :
    t'.2 ∉ t.1.2.vars := by
  intro hx
  obtain ⟨s, hs, hk⟩ := mem_callsOf.1 (g.mem ht)
  exact g.fresh t' ht' s hs (head_vars (calls_vars hk _ hx))

/-- The inserted assignments. -/
theorem insert_run {S : Sem Val} {b : List (Stmt Val)} {ts : List (Key × Var)} (g : Good b ts) (ρ : Env Val) (l : List (Key × Var))
    (hl : ∀ t ∈ l, t ∈ ts) (hn : (l.map (·.2)).Nodup) (ρ₁ : Env Val) (ha : Agree ts ρ ρ₁) :
    ∃ ρ₂, (∀ rest ρ' o, ExecAll S (l.map (fun t => Stmt.assign t.2 t.1.call) ++ rest) ρ₁ ρ' o ↔ ExecAll S rest ρ₂ ρ' o) ∧ Agree ts ρ ρ₂ ∧
      (∀ t ∈ l, ρ₂ t.2 = eval S ρ t.1.call) ∧ ∀ x, x ∉ l.map (·.2) → ρ₂ x = ρ₁ x := by
  induction l generalizing ρ₁ with
  | nil => exact ⟨ρ₁, fun _ _ _ => Iff.rfl, ha, by simp, fun _ _ => rfl⟩
  | cons t l ih =>
    simp only [List.map_cons, List.nodup_cons] at hn
    have htt := hl t (List.mem_cons_self ..)
    have hev : eval S ρ₁ t.1.call = eval S ρ t.1.call :=
      eval_congr S fun x hx => (ha x fun t' ht' he => g.vars htt ht' (he ▸ hx)).symm
    have ha' : Agree ts ρ (Function.update ρ₁ t.2 (eval S ρ₁ t.1.call)) := by
      intro x hx
      rw [Function.update_of_ne (hx t htt).symm]
      exact ha x hx
    obtain ⟨ρ₂, h1, h2, h3, h4⟩ := ih (fun t ht => hl t (List.mem_cons_of_mem _ ht)) hn.2 _ ha'
    refine ⟨ρ₂, fun rest ρ' o => ?_, h2, ?_, ?_⟩
    · rw [← h1]
      simp only [List.map_cons, List.cons_append]
      constructor
      · intro h
        cases h with
        | stop h => cases h
        | cons h h' => cases h; exact h'
      · intro h
        exact .cons .assign h
    · intro t' ht'
      rcases List.mem_cons.1 ht' with rfl | ht'
      · rw [h4 _ hn.1, Function.update_self, hev]
      · exact h3 t' ht'
    · intro x hx
      simp only [List.map_cons, List.mem_cons, not_or] at hx
      rw [h4 x hx.2, Function.update_of_ne hx.1]

theorem firstIdx_eq {pre post : List (Stmt Val)} {s : Stmt Val} {k : Key} (h : k ∈ s.head.calls) (hp : k ∉ callsOf pre) :
    firstIdx (pre ++ s :: post) k = pre.length := by
  unfold firstIdx
  rw [List.findIdx_append, if_neg, List.findIdx_cons]
  · simp [h]
  · rw [List.findIdx_lt_length]
    rintro ⟨s', hs', hk⟩
    exact hp (mem_callsOf.2 ⟨s', hs', by simpa using hk⟩)

theorem callsOf_append (a b : List (Stmt Val)) : callsOf (a ++ b) = callsOf a ++ callsOf b := by simp [callsOf]

theorem callsOf_cons (s : Stmt Val) (b : List (Stmt Val)) : callsOf (s :: b) = s.head.calls ++ callsOf b := by simp [callsOf]

theorem writes_names {s : Stmt Val} {x : Var} (h : x ∈ s.writes) : x ∈ s.names := by
  cases s with
  | assign y e => simp_all [Stmt.writes, Stmt.names]
  | ret e => simp [Stmt.writes] at h
  | branch e b => simp [Stmt.names, b.writes_sub x h]
  | loop e b => simp [Stmt.names, b.writes_sub x h]

theorem replace_writes (σ : Key → Option Var) (s : Stmt Val) : (s.replace σ).writes = s.writes := by cases s <;> rfl

/-- What holds when the statement has run. -/
theorem holds_after {S : Sem Val} {b : List (Stmt Val)} {ts : List (Key × Var)} (g : Good b ts) (hst : Stable b) {pre post : List (Stmt Val)}
    {s : Stmt Val} (hb : b = pre ++ s :: post) {ρ ρ' ρ₂ ρ₂' : Env Val} {o o' : Option Val}
    (hh : Holds S ts (fun k => k ∈ callsOf (pre ++ [s]) ∧ k ∈ callsOf (s :: post)) ρ ρ₂) (h : Exec S s ρ ρ' o)
    (h₂ : Exec S (s.replace (look ts)) ρ₂ ρ₂' o') : Holds S ts (fun k => k ∈ callsOf (pre ++ [s]) ∧ k ∈ callsOf post) ρ' ρ₂' := by
  intro t ht hk
  have hs : s ∈ b := by rw [hb]; simp
  rw [exec_frame h₂ _ fun hw => g.fresh t ht s hs (writes_names (by rwa [replace_writes] at hw)),
    hh t ht ⟨hk.1, by rw [callsOf_cons]; exact List.mem_append_right _ hk.2⟩]
  refine eval_congr S fun x hx => (exec_frame h x fun hw => ?_).symm
  exact hst pre s post hb t.1 ((occB_pos _ _).2 hk.1) ((occB_pos _ _).2 hk.2) x hw hx

theorem rebuild_sim {S : Sem Val} {b : List (Stmt Val)} {ts : List (Key × Var)} (g : Good b ts) (hst : Stable b) (hlo : StableLoops b)
    (rest : List (Stmt Val)) : ∀ (pre : List (Stmt Val)) (ρ ρ₁ : Env Val), b = pre ++ rest → Agree ts ρ ρ₁ →
      Holds S ts (fun k => k ∈ callsOf pre ∧ k ∈ callsOf rest) ρ ρ₁ →
      (∀ ρ' o, ExecAll S rest ρ ρ' o → ∃ ρ₁', ExecAll S (rebuild ts (firstIdx b) pre.length rest) ρ₁ ρ₁' o ∧ Agree ts ρ' ρ₁') ∧
      ∀ ρ₁' o, ExecAll S (rebuild ts (firstIdx b) pre.length rest) ρ₁ ρ₁' o → ∃ ρ', ExecAll S rest ρ ρ' o ∧ Agree ts ρ' ρ₁' := by
  induction rest with
  | nil =>
    intro pre ρ ρ₁ _ ha _
    constructor
    · intro ρ' o h
      cases h
      exact ⟨ρ₁, .nil, ha⟩
    · intro ρ₁' o h
      cases h
      exact ⟨ρ, .nil, ha⟩
  | cons s post ih =>
    intro pre ρ ρ₁ hb ha hh
    have hs : s ∈ b := by rw [hb]; simp
    have hr : Ready S ts s := by
      refine ⟨fun t ht => g.fresh t ht s hs, ?_⟩
      rintro e body rfl t ht hk x hx
      exact hlo e body hs t.1 ((occ_pos _ _).2 hk) ((g.keys t.1).1 ⟨_, ht⟩) x hx
    obtain ⟨ρ₂, h1, h2, h3, h4⟩ := insert_run (S := S) g ρ (ts.filter fun t => decide (firstIdx b t.1 = pre.length))
      (fun t ht => (List.mem_filter.1 ht).1) (g.varsNodup.sublist (List.filter_sublist.map _)) ρ₁ ha
    have hh₂ : Holds S ts (fun k => k ∈ callsOf (pre ++ [s]) ∧ k ∈ callsOf (s :: post)) ρ ρ₂ := by
      intro t ht hk
      by_cases hm : firstIdx b t.1 = pre.length
      · exact h3 t (List.mem_filter.2 ⟨ht, by simpa using hm⟩)
      · rw [h4]
        · refine hh t ht ⟨?_, hk.2⟩
          by_contra hp
          apply hm
          rw [hb]
          refine firstIdx_eq ?_ hp
          have := hk.1
          rw [callsOf_append, List.mem_append] at this
          simpa [callsOf] using this.resolve_left hp
        · intro hx
          obtain ⟨t', ht', he⟩ := List.mem_map.1 hx
          have ht'' := List.mem_filter.1 ht'
          have : t' = t := List.inj_on_of_nodup_map g.varsNodup ht''.1 ht he
          subst this
          exact hm (by simpa using ht''.2)
    have hhs : Holds S ts (· ∈ s.head.calls) ρ ρ₂ := fun t ht hk =>
      hh₂ t ht ⟨by rw [callsOf_append]; exact List.mem_append_right _ (by simpa [callsOf] using hk),
        by rw [callsOf_cons]; exact List.mem_append_left _ hk⟩
    have hb' : b = (pre ++ [s]) ++ post := by rw [hb]; simp
    constructor
    · intro ρ' o h
      simp only [rebuild]
      cases h with
      | stop h =>
        obtain ⟨ρ₂', h5, h6⟩ := stmt_fwd hr h2 hhs h
        exact ⟨ρ₂', (h1 _ _ _).2 (.stop h5), h6⟩
      | cons h h' =>
        obtain ⟨ρ₂', h5, h6⟩ := stmt_fwd hr h2 hhs h
        obtain ⟨ρ₃, h7, h8⟩ := (ih (pre ++ [s]) _ _ hb' h6 (holds_after g hst hb hh₂ h h5)).1 _ _ h'
        rw [List.length_append, List.length_singleton] at h7
        exact ⟨ρ₃, (h1 _ _ _).2 (.cons h5 h7), h8⟩
    · intro ρ₁' o h
      simp only [rebuild] at h
      replace h := (h1 _ _ _).1 h
      cases h with
      | stop h =>
        obtain ⟨ρ', h5, h6⟩ := stmt_bwd hr h2 hhs h
        exact ⟨ρ', .stop h5, h6⟩
      | cons h h' =>
        obtain ⟨ρ', h5, h6⟩ := stmt_bwd hr h2 hhs h
        have := (ih (pre ++ [s]) _ _ hb' h6 (holds_after g hst hb hh₂ h5 h)).2
        rw [List.length_append, List.length_singleton] at this
        obtain ⟨ρ₃, h7, h8⟩ := this _ _ h'
        exact ⟨ρ₃, .cons h5 h7, h8⟩

theorem Agree.same {b : List (Stmt Val)} {ts : List (Key × Var)} (g : Good b ts) {ρ ρ₁ : Env Val} (h : Agree ts ρ ρ₁) : SameFor b ρ ρ₁ := by
  constructor
  · intro n
    refine h _ fun t ht he => ?_
    obtain ⟨m, hm⟩ := g.isTmp t ht
    rw [hm] at he
    cases he
  · intro s hs x hx
    refine h _ fun t ht he => ?_
    exact g.fresh t ht s hs (he ▸ hx)

/-! ### No repetition remains -/

/-- The calls of an expression in which calls are replaced. -/
theorem replace_calls (σ : Key → Option Var) (e : Expr) :
    (e.replace σ).calls.Sublist ((e.calls.filter fun k => (σ k).isNone).map fun k => (k.1, k.2.replace σ)) := by
  induction e with
  | var x => simp [Expr.replace, Expr.calls]
  | quant r e ih =>
    simp only [Expr.replace]
    cases h : σ (r, e) with
    | some t => simp [Expr.calls]
    | none =>
      simp only [Expr.calls, List.filter_cons, h, Option.isNone_none, if_true, List.map_cons]
      exact ih.cons_cons _
  | op f a b iha ihb =>
    simp only [Expr.replace, Expr.calls, List.filter_append, List.map_append]
    exact iha.append ihb

theorem replace_head (σ : Key → Option Var) (s : Stmt Val) : (s.replace σ).head = s.head.replace σ := by cases s <;> rfl

/-- Replacing can be undone. -/
theorem replace_inj {ts : List (Key × Var)} (hn : (ts.map (·.2)).Nodup) {e e' : Expr} (h : ∀ t ∈ ts, t.2 ∉ e.vars) (h' : ∀ t ∈ ts, t.2 ∉ e'.vars)
    (he : e.replace (look ts) = e'.replace (look ts)) : e = e' := by
  induction e generalizing e' with
  | var x =>
    cases e' with
    | var y => simpa [Expr.replace] using he
    | quant r e' =>
      simp only [Expr.replace] at he
      cases hl : look ts (r, e') with
      | none => rw [hl] at he; cases he
      | some t =>
        rw [hl] at he
        cases he
        exact absurd (by simp [Expr.vars]) (h _ (look_some hl))
    | op f a b => cases he
  | quant r e ih =>
    cases e' with
    | var y =>
      simp only [Expr.replace] at he
      cases hl : look ts (r, e) with
      | none => rw [hl] at he; cases he
      | some t =>
        rw [hl] at he
        cases he
        exact absurd (by simp [Expr.vars]) (h' _ (look_some hl))
    | quant r' e' =>
      simp only [Expr.replace] at he
      cases hl : look ts (r, e) with
      | none =>
        cases hl' : look ts (r', e') with
        | none =>
          rw [hl, hl'] at he
          simp only [Expr.quant.injEq] at he
          rw [he.1, ih (e' := e') h h' he.2]
        | some t' => rw [hl, hl'] at he; cases he
      | some t =>
        cases hl' : look ts (r', e') with
        | none => rw [hl, hl'] at he; cases he
        | some t' =>
          rw [hl, hl'] at he
          cases he
          have := List.inj_on_of_nodup_map hn (look_some hl) (look_some hl') rfl
          simp only [Prod.mk.injEq, and_true] at this
          rw [this.1, this.2]
    | op f a b =>
      simp only [Expr.replace] at he
      cases hl : look ts (r, e) with
      | none => rw [hl] at he; cases he
      | some t => rw [hl] at he; cases he
  | op f a b iha ihb =>
    cases e' with
    | var y => cases he
    | quant r' e' =>
      simp only [Expr.replace] at he
      cases hl : look ts (r', e') with
      | none => rw [hl] at he; cases he
      | some t => rw [hl] at he; cases he
    | op f' a' b' =>
      simp only [Expr.replace, Expr.op.injEq] at he
      rw [he.1, iha (fun t ht hx => h t ht (by simp [Expr.vars, hx])) (fun t ht hx => h' t ht (by simp [Expr.vars, hx])) he.2.1,
        ihb (fun t ht hx => h t ht (by simp [Expr.vars, hx])) (fun t ht hx => h' t ht (by simp [Expr.vars, hx])) he.2.2]

/-- Where no introduced variable occurs after replacing, nothing was replaced. -/
theorem replace_same {ts : List (Key × Var)} {e : Expr} (h : ∀ t ∈ ts, t.2 ∉ (e.replace (look ts)).vars) : e.replace (look ts) = e := by
  induction e with
  | var x => rfl
  | quant r e ih =>
    simp only [Expr.replace] at h ⊢
    cases hl : look ts (r, e) with
    | none =>
      rw [hl] at h
      simp only
      rw [ih h]
    | some t =>
      rw [hl] at h
      exact absurd (by simp [Expr.vars]) (h _ (look_some hl))
  | op f a b iha ihb =>
    simp only [Expr.replace] at h ⊢
    rw [iha fun t ht hx => h t ht (by simp [Expr.vars, hx]), ihb fun t ht hx => h t ht (by simp [Expr.vars, hx])]

/-- The calls in the rewritten block. -/
theorem rebuild_count (ts : List (Key × Var)) (first : Key → ℕ) (hk : ∀ t ∈ ts, t.1.2.calls = []) (k : Key) (b : List (Stmt Val)) : ∀ j,
    (callsOf (rebuild ts first j b)).count k ≤ ((ts.filter fun t => decide (j ≤ first t.1)).map (·.1)).count k +
      (((callsOf b).filter fun k => (look ts k).isNone).map fun k => (k.1, k.2.replace (look ts))).count k := by
  induction b with
  | nil => intro j; simp [rebuild, callsOf]
  | cons s b ih =>
    intro j
    have h1 : callsOf ((ts.filter fun t => decide (first t.1 = j)).map (fun t => (Stmt.assign t.2 t.1.call : Stmt Val))) =
        (ts.filter fun t => decide (first t.1 = j)).map (·.1) := by
      clear ih
      induction ts with
      | nil => rfl
      | cons t ts iht =>
        have := iht fun t ht => hk t (List.mem_cons_of_mem _ ht)
        rw [List.filter_cons]
        split
        · rw [List.map_cons, callsOf_cons, this, List.map_cons]
          simp [Stmt.head, Key.call, Expr.calls, hk t (List.mem_cons_self ..)]
        · exact this
    have h2 : ((ts.filter fun t => decide (first t.1 = j)).map (·.1)).count k + ((ts.filter fun t => decide (j + 1 ≤ first t.1)).map (·.1)).count k =
        ((ts.filter fun t => decide (j ≤ first t.1)).map (·.1)).count k := by
      clear ih h1 hk
      induction ts with
      | nil => rfl
      | cons t ts iht =>
        simp only [List.filter_cons]
        rcases Nat.lt_trichotomy (first t.1) j with h | h | h
        · rw [if_neg (by simpa using by omega), if_neg (by simpa using by omega), if_neg (by simpa using by omega)]
          exact iht
        · rw [if_pos (by simpa using h), if_neg (by simpa using by omega), if_pos (by simpa using by omega), List.map_cons, List.map_cons,
            List.count_cons, List.count_cons]
          omega
        · rw [if_neg (by simpa using by omega), if_pos (by simpa using by omega), if_pos (by simpa using by omega), List.map_cons, List.map_cons,
            List.count_cons, List.count_cons]
          omega
    have h3 := (replace_calls (look ts) s.head).count_le k
    have h4 := ih (j + 1)
    simp only [rebuild]
    rw [callsOf_append, callsOf_cons, h1, replace_head, callsOf_cons, List.filter_append, List.map_append, List.count_append, List.count_append,
      List.count_append]
    omega

/-! ## Properties -/

/-- **C95 (partial).** A block runs as before when repeated quantizer calls are shared: it can return the same values, and its names and
all variables not of the form `_tmp_<n>` can end with the same values, as before and not otherwise. This holds if no variable of a call is
assigned between two occurrences of the call, and no `while` loop assigns variables of a repeated call in its condition.
Missing: `argument_reassigned` and `loop_condition_frozen` show that the conditions are needed, `outer_temporary_lost` that other variables
of the form `_tmp_<n>` are not kept. -/
theorem dedup_keeps_partial (S : Sem Val) (b : List (Stmt Val)) (hst : Stable b) (hlo : StableLoops b) (ρ : Env Val) (o : Option Val) :
    (∀ ρ', ExecAll S b ρ ρ' o → ∃ ρ₁, ExecAll S (dedup b) ρ ρ₁ o ∧ SameFor b ρ' ρ₁) ∧
    ∀ ρ₁, ExecAll S (dedup b) ρ ρ₁ o → ∃ ρ', ExecAll S b ρ ρ' o ∧ SameFor b ρ' ρ₁ := by
  unfold dedup
  split
  · exact ⟨fun ρ' h => ⟨ρ', h, fun _ => rfl, fun _ _ _ _ => rfl⟩, fun ρ' h => ⟨ρ', h, fun _ => rfl, fun _ _ _ _ => rfl⟩⟩
  · have g := good_temps b
    have := rebuild_sim (S := S) g hst hlo b [] ρ ρ rfl (fun _ _ => rfl) (fun t _ h => by simp [callsOf] at h)
    constructor
    · intro ρ' h
      obtain ⟨ρ₁, h1, h2⟩ := this.1 ρ' o h
      exact ⟨ρ₁, h1, h2.same g⟩
    · intro ρ₁ h
      obtain ⟨ρ', h1, h2⟩ := this.2 ρ₁ o h
      exact ⟨ρ', h1, h2.same g⟩

/-- **C95 (partial).** When repeated quantizer calls are shared, no quantizer call occurs twice in the block. This holds if no repeated call
has quantizer calls in its argument.
Missing: `inner_call_repeated` shows that the condition is needed. -/
theorem no_repeats_partial (b : List (Stmt Val)) (h : ∀ k, 1 < occB k b → ∀ k', occ k' k.2 = 0) (k : Key) : occB k (dedup b) ≤ 1 := by
  by_cases hr : repeated b = []
  · rw [dedup, if_pos hr]
    have := mt (mem_repeated b k).2 (by rw [hr]; exact List.not_mem_nil)
    omega
  rw [dedup, if_neg hr]
  have g := good_temps b
  generalize temps (suffixes b) (repeated b) = ts at g
  have hk : ∀ t ∈ ts, t.1.2.calls = [] := by
    intro t ht
    refine List.eq_nil_iff_forall_not_mem.2 fun k' hk' => ?_
    have := h t.1 ((g.keys _).1 ⟨_, ht⟩) k'
    rw [← occ_pos] at hk'
    omega
  have h1 := rebuild_count ts (firstIdx b) hk k b 0
  rw [← occB_eq] at h1
  have h2 : ((ts.filter fun t => decide (0 ≤ firstIdx b t.1)).map (·.1)).count k ≤ 1 :=
    List.nodup_iff_count_le_one.1 (g.keysNodup.sublist (List.filter_sublist.map _)) k
  have hvars : ∀ k' ∈ callsOf b, ∀ t ∈ ts, t.2 ∉ k'.2.vars := by
    intro k' hk' t ht hx
    obtain ⟨s, hs, hc⟩ := mem_callsOf.1 hk'
    exact g.fresh t ht s hs (head_vars (calls_vars hc _ hx))
  have h3 : (((callsOf b).filter fun k => (look ts k).isNone).map fun k => (k.1, k.2.replace (look ts))).Nodup := by
    refine List.Nodup.map_on ?_ ?_
    · intro x hx y hy he
      simp only [Prod.mk.injEq] at he
      have := replace_inj g.varsNodup (hvars x (List.mem_filter.1 hx).1) (hvars y (List.mem_filter.1 hy).1) he.2
      exact Prod.ext he.1 this
    · rw [List.nodup_iff_count_le_one]
      intro x
      by_cases hx : (look ts x).isNone
      · rw [List.count_filter (by simpa using hx), ← occB_eq]
        have := mt (g.keys x).2 (by
          rintro ⟨t, ht⟩
          exact look_none.1 (by simpa using hx) t ht)
        omega
      · rw [List.count_eq_zero.2]
        · omega
        · intro hm
          exact hx (by simpa using (List.mem_filter.1 hm).2)
  by_cases hm : k ∈ ts.map (·.1)
  · have : ((((callsOf b).filter fun k => (look ts k).isNone).map fun k => (k.1, k.2.replace (look ts)))).count k = 0 := by
      rw [List.count_eq_zero]
      intro hm'
      obtain ⟨t, ht, rfl⟩ := List.mem_map.1 hm
      obtain ⟨k', hk', he⟩ := List.mem_map.1 hm'
      have hf := List.mem_filter.1 hk'
      have he2 : k'.2.replace (look ts) = t.1.2 := congrArg Prod.snd he
      have he1 : k'.1 = t.1.1 := by rw [← he]
      have hs := replace_same (ts := ts) (e := k'.2) (by
        intro t' ht'
        rw [he2]
        exact g.vars ht ht')
      have : k' = t.1 := Prod.ext he1 (by rw [← hs, he2])
      exact look_none.1 (by simpa using hf.2) t.2 (by rw [this]; exact ht)
    omega
  · have h4 : ((ts.filter fun t => decide (0 ≤ firstIdx b t.1)).map (·.1)).count k = 0 := by
      rw [List.count_eq_zero]
      intro hm'
      exact hm ((List.filter_sublist.map _).subset hm')
    have := List.nodup_iff_count_le_one.1 h3 k
    omega

/-! ## Deviations -/

/-- Quantizers return what they are given, operation 0 its first argument; values other than zero are true. -/
def plain : Sem ℕ := ⟨fun _ v => v, fun _ v _ => v, fun v => v != 0⟩

/-- `x0 = q(x1); x1 = x2; return q(x1)` -/
def reassigning : List (Stmt ℕ) :=
  [.assign (.user 0) (.quant 0 (.var (.user 1))), .assign (.user 1) (.var (.user 2)), .ret (.quant 0 (.var (.user 1)))]

/-- **C95, deviation.** If the argument of a quantizer call is assigned between two occurrences of the call, the second occurrence gets the
value of the first: `x0 = q(x1); x1 = x2; return q(x1)` returns `q(x1)` for the old `x1`. -/
theorem argument_reassigned : ∃ (b : List (Stmt ℕ)) (ρ ρ' : Env ℕ) (v : ℕ), StableLoops b ∧ ExecAll plain b ρ ρ' (some v) ∧
    (∃ ρ₁ w, ExecAll plain (dedup b) ρ ρ₁ (some w) ∧ w ≠ v) ∧ ∀ ρ₁, ¬ ExecAll plain (dedup b) ρ ρ₁ (some v) := by
  have h1 : ∃ ρ', ExecAll plain reassigning (fun x => if x = .user 2 then 2 else 1) ρ' (some 2) :=
    ⟨_, .cons .assign (.cons .assign (.stop .ret))⟩
  have h2 : ∃ ρ₁, ExecAll plain (dedup reassigning) (fun x => if x = .user 2 then 2 else 1) ρ₁ (some 1) :=
    ⟨_, .cons .assign (.cons .assign (.cons .assign (.stop .ret)))⟩
  obtain ⟨ρ', h1⟩ := h1
  obtain ⟨ρ₁, h2⟩ := h2
  refine ⟨reassigning, fun x => if x = .user 2 then 2 else 1, ρ', 2, ?_, h1, ⟨ρ₁, 1, h2, by decide⟩, ?_⟩
  · intro e body h
    simp [reassigning] at h
  · intro ρ₁ h
    have hd : dedup reassigning = [.assign (.tmp 1) (.quant 0 (.var (.user 1))), .assign (.user 0) (.var (.tmp 1)),
      .assign (.user 1) (.var (.user 2)), .ret (.var (.tmp 1))] := by rfl
    rw [hd] at h
    cases h with
    | stop h => cases h
    | cons h0 h =>
    cases h0
    cases h with
    | stop h => cases h
    | cons h0 h =>
    cases h0
    cases h with
    | stop h => cases h
    | cons h0 h =>
    cases h0
    cases h with
    | cons h0 h => cases h0
    | stop h =>
    generalize hv : some 2 = o at h
    cases h
    simp [eval, plain, Function.update] at hv

/-- The block `x0 = x1`. -/
def copying : Body ℕ where
  run _ ρ ρ' o := ρ' = Function.update ρ (.user 0) (ρ (.user 1)) ∧ o = none
  names := [.user 0, .user 1]
  writes := [.user 0]
  writes_sub := by simp
  frame := by
    rintro v ρ ρ' o ⟨rfl, -⟩ x hx
    exact Function.update_of_ne (by simpa using hx) _ _
  respects := by
    rintro v ρ ρ' o ρ₁ ⟨rfl, rfl⟩ h
    refine ⟨_, ⟨rfl, rfl⟩, fun x hx => ?_⟩
    rw [h (.user 1) (by simp)]
    by_cases he : x = .user 0
    · subst he; simp
    · rw [Function.update_of_ne he, Function.update_of_ne he, h x hx]

/-- `while q(x0) or q(x0): x0 = x1` -/
def looping : List (Stmt ℕ) := [.loop (.op 0 (.quant 0 (.var (.user 0))) (.quant 0 (.var (.user 0)))) copying]

theorem true_loop (b : Body ℕ) (hb : ∀ v ρ ρ' o, b.run v ρ ρ' o → o = none ∧ ρ' (.tmp 1) = ρ (.tmp 1)) {s : Stmt ℕ} {ρ ρ' : Env ℕ} {o : Option ℕ}
    (h : Exec plain s ρ ρ' o) (hs : s = .loop (.op 0 (.var (.tmp 1)) (.var (.tmp 1))) b) : ρ (.tmp 1) = 0 := by
  induction h with
  | assign => cases hs
  | ret => cases hs
  | branch => cases hs
  | loopEnd h => cases hs; simpa [plain, eval] using h
  | loopStep _ h _ ih =>
    cases hs
    rw [← (hb _ _ _ _ h).2]
    exact ih rfl
  | loopExit _ h =>
    cases hs
    exact absurd (hb _ _ _ _ h).1 (by simp)

/-- **C95, deviation.** Calls that are repeated in the condition of a `while` loop are made once, before the loop: a loop that ends may become
one that does not. -/
theorem loop_condition_frozen : ∃ (b : List (Stmt ℕ)) (ρ ρ' : Env ℕ), Stable b ∧ ExecAll plain b ρ ρ' none ∧
    ∀ ρ₁ o, ¬ ExecAll plain (dedup b) ρ ρ₁ o := by
  have h1 : ∃ ρ', ExecAll plain looping (fun x => if x = .user 0 then 1 else 0) ρ' none :=
    ⟨_, .cons (.loopStep rfl ⟨rfl, rfl⟩ (.loopEnd rfl)) .nil⟩
  obtain ⟨ρ', h1⟩ := h1
  refine ⟨looping, fun x => if x = .user 0 then 1 else 0, ρ', ?_, h1, ?_⟩
  · intro pre s post h k _ hp
    have : post = [] := by
      cases pre with
      | nil => simp [looping] at h; exact h.2
      | cons a pre => simp [looping] at h
    subst this
    simp [occB] at hp
  · intro ρ₁ o h
    have hd : dedup looping = [.assign (.tmp 1) (.quant 0 (.var (.user 0))), .loop (.op 0 (.var (.tmp 1)) (.var (.tmp 1))) copying] := by rfl
    rw [hd] at h
    have hb : ∀ v ρ ρ' o, copying.run v ρ ρ' o → o = none ∧ ρ' (.tmp 1) = ρ (.tmp 1) := by
      rintro v ρ ρ' o ⟨rfl, rfl⟩
      exact ⟨rfl, Function.update_of_ne (by simp) _ _⟩
    cases h with
    | stop h => cases h
    | cons h0 h =>
    cases h0
    cases h with
    | stop h => exact absurd (true_loop _ hb h rfl) (by simp [eval, plain])
    | cons h _ => exact absurd (true_loop _ hb h rfl) (by simp [eval, plain])

/-- `x0 = q(x1); x2 = q(x1)` -/
def twice : List (Stmt ℕ) := [.assign (.user 0) (.quant 0 (.var (.user 1))), .assign (.user 2) (.quant 0 (.var (.user 1)))]

/-- **C95, deviation.** Only the names in the block itself are avoided: a variable `_tmp_1` that the function uses outside of the block is
overwritten. -/
theorem outer_temporary_lost : ∃ (b : List (Stmt ℕ)) (ρ : Env ℕ) (x : Var), Stable b ∧ StableLoops b ∧
    (∀ ρ' o, ExecAll plain b ρ ρ' o → ρ' x = ρ x) ∧ (∃ ρ₁, ExecAll plain (dedup b) ρ ρ₁ none) ∧
    ∀ ρ₁ o, ExecAll plain (dedup b) ρ ρ₁ o → ρ₁ x ≠ ρ x := by
  have hd : dedup twice = [.assign (.tmp 1) (.quant 0 (.var (.user 1))), .assign (.user 0) (.var (.tmp 1)), .assign (.user 2) (.var (.tmp 1))] := by rfl
  refine ⟨twice, fun x => if x = .tmp 1 then 1 else 0, .tmp 1, ?_, ?_, ?_, ⟨_, .cons .assign (.cons .assign (.cons .assign .nil))⟩, ?_⟩
  · intro pre s post h k hk hp x hx
    match pre, h with
    | [], h =>
      simp only [twice, List.nil_append, List.cons.injEq] at h
      obtain ⟨rfl, rfl⟩ := h
      simp only [Stmt.writes, List.mem_singleton] at hx
      subst hx
      have : k = (0, .var (.user 1)) := by
        simp only [occB, Stmt.head, occ] at hp
        by_contra hne
        rw [if_neg (fun h => hne h.symm)] at hp
        omega
      subst this
      simp [Expr.vars]
    | [a], h =>
      simp only [twice, List.cons_append, List.nil_append, List.cons.injEq] at h
      obtain ⟨-, -, rfl⟩ := h
      simp [occB] at hp
    | a :: a' :: pre, h => simp [twice] at h
  · intro e body h
    simp [twice] at h
  · intro ρ' o h
    cases h with
    | stop h => cases h
    | cons h0 h =>
    cases h0
    cases h with
    | stop h => cases h
    | cons h0 h =>
    cases h0
    cases h
    simp [Function.update]
  · intro ρ₁ o h
    rw [hd] at h
    cases h with
    | stop h => cases h
    | cons h0 h =>
    cases h0
    cases h with
    | stop h => cases h
    | cons h0 h =>
    cases h0
    cases h with
    | stop h => cases h
    | cons h0 h =>
    cases h0
    cases h
    simp [Function.update, eval, plain]

/-- `x0 = q(r(s(x1))); x2 = q(r(s(x1)))` -/
def nested : List (Stmt ℕ) :=
  [.assign (.user 0) (.quant 0 (.quant 1 (.quant 2 (.var (.user 1))))), .assign (.user 2) (.quant 0 (.quant 1 (.quant 2 (.var (.user 1)))))]

/-- **C95, deviation.** A repeated call that has quantizer calls in its argument is stored as it is, and the calls in it are stored again: they are
still made repeatedly, also when the block is processed a second time. -/
theorem inner_call_repeated : ∃ (b : List (Stmt ℕ)) (k : Key), 1 < occB k (dedup b) ∧ 1 < occB k (dedup (dedup b)) :=
  ⟨nested, (2, .var (.user 1)), by decide, by decide⟩

/-! ## Concrete cases -/

example : dedup nested = [.assign (.tmp 1) (.quant 0 (.quant 1 (.quant 2 (.var (.user 1))))), .assign (.tmp 2) (.quant 1 (.quant 2 (.var (.user 1)))),
    .assign (.tmp 3) (.quant 2 (.var (.user 1))), .assign (.user 0) (.var (.tmp 1)), .assign (.user 2) (.var (.tmp 1))] := rfl

/-- A block with a repeated call and a taken name: `_tmp_1 = x0; x3 = q(x1) + x0; x1' = q(x1)`. -/
def sample : List (Stmt ℕ) :=
  [.assign (.tmp 1) (.var (.user 0)), .assign (.user 3) (.op 0 (.quant 0 (.var (.user 1))) (.var (.user 0))),
    .assign (.user 1) (.quant 0 (.var (.user 1)))]

example : dedup sample = [.assign (.tmp 1) (.var (.user 0)), .assign (.tmp 2) (.quant 0 (.var (.user 1))),
    .assign (.user 3) (.op 0 (.var (.tmp 2)) (.var (.user 0))), .assign (.user 1) (.var (.tmp 2))] := rfl

example : Stable sample ∧ StableLoops sample := by
  constructor
  · intro pre s post h k hk hp x hx
    match pre, h with
    | [], h =>
      simp only [sample, List.nil_append, List.cons.injEq] at h
      obtain ⟨rfl, rfl⟩ := h
      simp [occB, Stmt.head, occ] at hk
    | [a], h =>
      simp only [sample, List.cons_append, List.nil_append, List.cons.injEq] at h
      obtain ⟨rfl, rfl, rfl⟩ := h
      simp only [Stmt.writes, List.mem_singleton] at hx
      subst hx
      have : k = (0, .var (.user 1)) := by
        simp only [occB, Stmt.head, occ] at hp
        by_contra hne
        rw [if_neg (fun h => hne h.symm)] at hp
        omega
      subst this
      simp [Expr.vars]
    | [a, a'], h =>
      simp only [sample, List.cons_append, List.nil_append, List.cons.injEq] at h
      obtain ⟨-, -, -, rfl⟩ := h
      simp [occB] at hp
    | a :: a' :: a'' :: pre, h => simp [sample] at h
  · intro e body h
    simp [sample] at h

example : ∀ k, 1 < occB k sample → ∀ k', occ k' k.2 = 0 := by
  intro k h k'
  have : k = (0, .var (.user 1)) := by
    simp only [sample, occB, Stmt.head, occ] at h
    by_contra hne
    rw [if_neg (fun h => hne h.symm)] at h
    omega
  subst this
  rfl

end FF.Dedup
