import Verif.Autoquant.PreprocessProps

/-! # Autoquant's preprocessing: where the candidates end up, and deviations (C85) -/

namespace FF.Py

/-! ### Specification -/

mutual

/-- No candidate, except within comprehensions and conditional expressions. -/
def Clear : Expr → Prop
  | .name _ => True
  | .lit _ => True
  | .op _ l => ClearAll l
  | .ctrl _ fixed _ l => fixed = true ∨ ClearAll l
  | .cand _ => False

def ClearAll : List Expr → Prop
  | [] => True
  | e :: l => Clear e ∧ ClearAll l

end

/-- A candidate only as the whole expression. -/
def Whole (e : Expr) : Prop := Clear e ∨ ∃ e', e = .cand e' ∧ Clear e'

def ClearTarget : Target → Prop
  | .name _ => True
  | .store _ l => ClearAll l

/-- A small statement with at most one candidate to replace: its value. -/
def WholeSmall : Small → Prop
  | .assign ts v => (∀ t ∈ ts, ClearTarget t) ∧ Whole v
  | .aug _ _ _ => False
  | .expr e => Whole e
  | .ret e => ∀ e' ∈ e, Whole e'
  | .throw e => Whole e
  | .check t m => Clear t ∧ ∀ m' ∈ m, Clear m'
  | _ => True

mutual

/-- Every line is one small statement, with at most one candidate to replace. -/
def WholeStmt : Stmt → Prop
  | .line l => ∃ s, l = [s] ∧ WholeSmall s
  | .cond _ a b => WholeBlock a ∧ WholeBlock b
  | .loop _ a => WholeBlock a
  | .each _ _ a => WholeBlock a

def WholeBlock : List Stmt → Prop
  | [] => True
  | s :: l => WholeStmt s ∧ WholeBlock l

end

def boundTarget : Target → List String
  | .name x => [x]
  | .store _ _ => []

def boundSmall : Small → List String
  | .assign ts _ => ts.flatMap boundTarget
  | .aug _ t _ => boundTarget t
  | _ => []

mutual

/-- The variables that statements assign, one entry for each place in the source that does. -/
def boundStmt : Stmt → List String
  | .line l => l.flatMap boundSmall
  | .cond _ a b => boundBlock a ++ boundBlock b
  | .loop _ a => boundBlock a
  | .each x _ a => x :: boundBlock a

def boundBlock : List Stmt → List String
  | [] => []
  | s :: l => boundStmt s ++ boundBlock l

end

mutual

/-- How many candidates an expression has. -/
def cands : Expr → ℕ
  | .name _ => 0
  | .lit _ => 0
  | .op _ l => candsAll l
  | .ctrl _ _ _ l => candsAll l
  | .cand e => cands e + 1

def candsAll : List Expr → ℕ
  | [] => 0
  | e :: l => cands e + candsAll l

end

mutual

/-- How many operations of an expression are to be replaced. -/
def chosen (p : Kind → List Expr → Bool) : Expr → ℕ
  | .name _ => 0
  | .lit _ => 0
  | .op k l => (if p k l = true then 1 else 0) + chosenAll p l
  | .ctrl _ _ _ l => chosenAll p l
  | .cand e => chosen p e

def chosenAll (p : Kind → List Expr → Bool) : List Expr → ℕ
  | [] => 0
  | e :: l => chosen p e + chosenAll p l

end

def sumTarget (f : Expr → ℕ) : Target → ℕ
  | .name _ => 0
  | .store _ l => (l.map f).sum

/-- The sum of a number over the expressions of a statement. -/
def sumSmall (f : Expr → ℕ) : Small → ℕ
  | .assign ts v => (ts.map (sumTarget f)).sum + f v
  | .aug _ t v => sumTarget f t + f v
  | .expr e => f e
  | .ret e => (e.map f).getD 0
  | .throw e => f e
  | .check t m => f t + (m.map f).getD 0
  | _ => 0

mutual

def sumStmt (f : Expr → ℕ) : Stmt → ℕ
  | .line l => (l.map (sumSmall f)).sum
  | .cond t a b => f t + sumBlock f a + sumBlock f b
  | .loop t a => f t + sumBlock f a
  | .each _ it a => f it + sumBlock f a

def sumBlock (f : Expr → ℕ) : List Stmt → ℕ
  | [] => 0
  | s :: l => sumStmt f s + sumBlock f l

end

/-! ### Lemmas -/

theorem candsAll_sum : ∀ l : List Expr, candsAll l = (l.map cands).sum
  | [] => rfl
  | e :: l => by simp [candsAll, candsAll_sum l]

theorem chosenAll_sum (p : Kind → List Expr → Bool) : ∀ l : List Expr, chosenAll p l = (l.map (chosen p)).sum
  | [] => rfl
  | e :: l => by simp [chosenAll, chosenAll_sum p l]

def insSum (ins : List (ℕ × Expr)) : ℕ := (ins.map fun i => cands i.2).sum

theorem insSum_append (a b : List (ℕ × Expr)) : insSum (a ++ b) = insSum a + insSum b := by simp [insSum]

/-- What is inserted. -/
def ClearIns (ins : List (ℕ × Expr)) : Prop := ∀ i ∈ ins, ∃ e, i.2 = .cand e ∧ Clear e

theorem ClearIns.append {a b : List (ℕ × Expr)} (ha : ClearIns a) (hb : ClearIns b) : ClearIns (a ++ b) := fun i hi =>
  (List.mem_append.1 hi).elim (ha i) (hb i)

/-- The numbers of what is inserted. -/
def InsFrom (n : ℕ) (ins : List (ℕ × Expr)) : Prop := ins.map (·.1) = List.range' n ins.length

theorem InsFrom.append {n : ℕ} {a b : List (ℕ × Expr)} (ha : InsFrom n a) (hb : InsFrom (n + a.length) b) : InsFrom n (a ++ b) := by
  unfold InsFrom at *
  rw [List.map_append, ha, hb, List.length_append, List.range'_append_1]

mutual

theorem iso_clear : ∀ (e : Expr) (n : ℕ), Clear (iso false e n).1 ∧ ClearIns (iso false e n).2 ∧ InsFrom n (iso false e n).2
  | .name x, n => by simp [iso, Clear, ClearIns, InsFrom]
  | .lit k, n => by simp [iso, Clear, ClearIns, InsFrom]
  | .op k l, n => by
    simp only [iso, Clear]
    exact isoAll_clear l n
  | .ctrl k fixed xs l, n => by
    cases fixed with
    | true =>
      simp only [iso, Clear, Bool.or_true, true_or, true_and]
      rw [isoAll_inside]
      simp [ClearIns, InsFrom]
    | false =>
      simp only [iso, Clear, Bool.or_self]
      exact ⟨Or.inr (isoAll_clear l n).1, (isoAll_clear l n).2⟩
  | .cand e, n => by
    obtain ⟨h1, h2, h3⟩ := iso_clear e n
    simp only [iso, Bool.false_eq_true, if_false, Clear, true_and]
    refine ⟨h2.append fun i hi => ?_, h3.append ?_⟩
    · simp only [List.mem_singleton] at hi
      subst hi
      exact ⟨_, rfl, h1⟩
    · simp [InsFrom]

theorem isoAll_clear : ∀ (l : List Expr) (n : ℕ), ClearAll (isoAll false l n).1 ∧ ClearIns (isoAll false l n).2 ∧ InsFrom n (isoAll false l n).2
  | [], n => by simp [isoAll, ClearAll, ClearIns, InsFrom]
  | e :: l, n => by
    obtain ⟨h1, h2, h3⟩ := iso_clear e n
    obtain ⟨k1, k2, k3⟩ := isoAll_clear l (n + (iso false e n).2.length)
    simp only [isoAll, ClearAll]
    exact ⟨⟨h1, k1⟩, h2.append k2, h3.append k3⟩

end

theorem isoTop_clear (e : Expr) (n : ℕ) : Whole (isoTop e n).1 ∧ ClearIns (isoTop e n).2 ∧ InsFrom n (isoTop e n).2 := by
  unfold isoTop
  split
  · rename_i e
    obtain ⟨h1, h2⟩ := iso_clear e n
    exact ⟨Or.inr ⟨_, rfl, h1⟩, h2⟩
  · exact ⟨Or.inl (iso_clear _ n).1, (iso_clear _ n).2⟩

theorem isoTargets_clear : ∀ (ts : List Target) (n : ℕ), (∀ t ∈ (isoTargets ts n).1, ClearTarget t) ∧ ClearIns (isoTargets ts n).2 ∧ InsFrom n (isoTargets ts n).2 ∧
    (isoTargets ts n).1.flatMap boundTarget = ts.flatMap boundTarget
  | [], n => by simp [isoTargets, ClearIns, InsFrom]
  | .name x :: ts, n => by
    obtain ⟨h1, h2, h3, h4⟩ := isoTargets_clear ts n
    simp only [isoTargets, List.mem_cons, forall_eq_or_imp, ClearTarget, true_and, List.flatMap_cons, h4]
    exact ⟨h1, h2, h3, trivial⟩
  | .store k es :: ts, n => by
    obtain ⟨k1, k2, k3⟩ := isoAll_clear es n
    obtain ⟨h1, h2, h3, h4⟩ := isoTargets_clear ts (n + (isoAll false es n).2.length)
    simp only [isoTargets, List.mem_cons, forall_eq_or_imp, ClearTarget, List.flatMap_cons, h4, boundTarget]
    exact ⟨⟨k1, h1⟩, k2.append h2, k3.append h3, trivial⟩

theorem isoSmall_clear (s : Small) (n : ℕ) (haug : ∀ o t v, s ≠ .aug o t v) : WholeSmall (isoSmall s n).1 ∧ ClearIns (isoSmall s n).2 ∧ InsFrom n (isoSmall s n).2 ∧
    boundSmall (isoSmall s n).1 = boundSmall s := by
  match s, haug with
  | .aug o t v, haug => exact absurd rfl (haug o t v)
  | .assign ts v, _ =>
    obtain ⟨h1, h2, h3, h4⟩ := isoTargets_clear ts n
    obtain ⟨k1, k2, k3⟩ := isoTop_clear v (n + (isoTargets ts n).2.length)
    exact ⟨⟨h1, k1⟩, h2.append k2, h3.append k3, h4⟩
  | .expr e, _ =>
    obtain ⟨k1, k2, k3⟩ := isoTop_clear e n
    exact ⟨k1, k2, k3, rfl⟩
  | .ret none, _ => simp [isoSmall, WholeSmall, ClearIns, InsFrom]
  | .ret (some e), _ =>
    obtain ⟨k1, k2, k3⟩ := isoTop_clear e n
    refine ⟨?_, k2, k3, rfl⟩
    intro e' he'
    simp only [Option.mem_def, Option.some.injEq] at he'
    exact he' ▸ k1
  | .throw e, _ =>
    obtain ⟨k1, k2, k3⟩ := isoTop_clear e n
    exact ⟨k1, k2, k3, rfl⟩
  | .check t none, _ =>
    obtain ⟨h1, h2, h3⟩ := iso_clear t n
    exact ⟨⟨h1, nofun⟩, h2, h3, rfl⟩
  | .check t (some m), _ =>
    obtain ⟨h1, h2, h3⟩ := iso_clear t n
    obtain ⟨k1, k2, k3⟩ := iso_clear m (n + (iso false t n).2.length)
    refine ⟨⟨h1, ?_⟩, h2.append k2, h3.append k3, rfl⟩
    intro e' he'
    simp only [Option.mem_def, Option.some.injEq] at he'
    exact he' ▸ k1
  | .pass, _ => simp [isoSmall, WholeSmall, ClearIns, InsFrom]
  | .brk, _ => simp [isoSmall, WholeSmall, ClearIns, InsFrom]
  | .cont, _ => simp [isoSmall, WholeSmall, ClearIns, InsFrom]

mutual

/-- Lines of one small statement, none augmented. -/
def SingleStmt : Stmt → Prop
  | .line l => ∃ s, l = [s] ∧ ∀ o t v, s ≠ .aug o t v
  | .cond _ a b => SingleBlock a ∧ SingleBlock b
  | .loop _ a => SingleBlock a
  | .each _ _ a => SingleBlock a

def SingleBlock : List Stmt → Prop
  | [] => True
  | s :: l => SingleStmt s ∧ SingleBlock l

end

theorem single_append : ∀ {a b : List Stmt}, SingleBlock a → SingleBlock b → SingleBlock (a ++ b)
  | [], b, _, h => h
  | s :: a, b, h, h' => by
    simp only [SingleBlock, List.cons_append] at h ⊢
    exact ⟨h.1, single_append h.2 h'⟩

theorem markSmall_noAug {p : Kind → List Expr → Bool} {s : Small} (h : ∀ o t v, s ≠ .aug o t v) : ∀ o t v, markSmall p s ≠ .aug o t v := by
  cases s with
  | aug o t v => exact absurd rfl (h o t v)
  | _ => nofun

theorem single_lines (p : Kind → List Expr → Bool) : ∀ l : List Small, SingleBlock (markBlock p (expandBlock (l.map fun s => .line [s])))
  | [] => by simp [expandBlock, markBlock, SingleBlock]
  | s :: l => by
    simp only [List.map_cons, expandBlock, expandStmt, List.map_nil, markBlock, markStmt, SingleBlock, SingleStmt]
    exact ⟨⟨_, rfl, markSmall_noAug (expandSmall_noAug s)⟩, single_lines p l⟩

mutual

theorem single_stmt (p : Kind → List Expr → Bool) : ∀ s : Stmt, SingleBlock (markBlock p (expandBlock (splitStmt s)))
  | .line l => by
    simp only [splitStmt]
    exact single_lines p l
  | .cond t a b => by
    simp only [splitStmt, expandBlock, expandStmt, markBlock, markStmt, SingleBlock, SingleStmt, and_true]
    exact ⟨single_block p a, single_block p b⟩
  | .loop t a => by
    simp only [splitStmt, expandBlock, expandStmt, markBlock, markStmt, SingleBlock, SingleStmt, and_true]
    exact single_block p a
  | .each x it a => by
    simp only [splitStmt, expandBlock, expandStmt, markBlock, markStmt, SingleBlock, SingleStmt, and_true]
    exact single_block p a

theorem single_block (p : Kind → List Expr → Bool) : ∀ b : List Stmt, SingleBlock (markBlock p (expandBlock (splitBlock b)))
  | [] => by simp [splitBlock, expandBlock, markBlock, SingleBlock]
  | s :: l => by
    simp only [splitBlock, expandBlock_append, markBlock_append]
    exact single_append (single_stmt p s) (single_block p l)

end

theorem whole_append : ∀ {a b : List Stmt}, WholeBlock a → WholeBlock b → WholeBlock (a ++ b)
  | [], b, _, h => h
  | s :: a, b, h, h' => by
    simp only [WholeBlock, List.cons_append] at h ⊢
    exact ⟨h.1, whole_append h.2 h'⟩

theorem whole_ins : ∀ {ins : List (ℕ × Expr)}, ClearIns ins → WholeBlock (ins.map insertion)
  | [], _ => trivial
  | i :: ins, h => by
    simp only [List.map_cons, WholeBlock, insertion, WholeStmt]
    obtain ⟨e, he, hc⟩ := h i (by simp)
    refine ⟨⟨_, rfl, ?_, ?_⟩, whole_ins fun i hi => h i (by simp [hi])⟩
    · simp [ClearTarget]
    · exact Or.inr ⟨e, he, hc⟩

mutual

theorem whole_stmt : ∀ (s : Stmt) (n : ℕ), SingleStmt s → WholeBlock (isoStmt s n).1
  | .line l, n, h => by
    simp only [SingleStmt] at h
    obtain ⟨s, rfl, haug⟩ := h
    obtain ⟨h1, h2, -⟩ := isoSmall_clear s n haug
    simp only [isoStmt, isoLine, List.append_nil]
    exact whole_append (whole_ins h2) ⟨⟨_, rfl, h1⟩, trivial⟩
  | .cond t a b, n, h => by
    simp only [SingleStmt] at h
    simp only [isoStmt, WholeBlock, WholeStmt, and_true]
    exact ⟨whole_block a _ h.1, whole_block b _ h.2⟩
  | .loop t a, n, h => by
    simp only [SingleStmt] at h
    simp only [isoStmt, WholeBlock, WholeStmt, and_true]
    exact whole_block a _ h
  | .each x it a, n, h => by
    simp only [SingleStmt] at h
    simp only [isoStmt, WholeBlock, WholeStmt, and_true]
    exact whole_block a _ h

theorem whole_block : ∀ (b : List Stmt) (n : ℕ), SingleBlock b → WholeBlock (isoBlock b n).1
  | [], n, h => by simp [isoBlock, WholeBlock]
  | s :: l, n, h => by
    simp only [SingleBlock] at h
    simp only [isoBlock]
    exact whole_append (whole_stmt s n h.1) (whole_block l _ h.2)

end

theorem bound_append : ∀ a b : List Stmt, boundBlock (a ++ b) = boundBlock a ++ boundBlock b
  | [], b => by simp [boundBlock]
  | s :: a, b => by simp [boundBlock, bound_append a b]

theorem bound_ins : ∀ ins : List (ℕ × Expr), boundBlock (ins.map insertion) = (ins.map (·.1)).map tmp
  | [] => by simp [boundBlock]
  | i :: ins => by simp [boundBlock, bound_ins ins, insertion, boundStmt, boundSmall, boundTarget]

/-- How often the temporaries are assigned: those numbered from `n` to `m` at most once, others never. -/
def Once (l : List String) (n m : ℕ) : Prop := ∀ i, l.count (tmp i) ≤ 1 ∧ ((i < n ∨ m ≤ i) → l.count (tmp i) = 0)

theorem Once.append {a b : List String} {n k m : ℕ} (ha : Once a n k) (hb : Once b k m) (h1 : n ≤ k) (h2 : k ≤ m) : Once (a ++ b) n m := by
  intro i
  obtain ⟨a1, a2⟩ := ha i
  obtain ⟨b1, b2⟩ := hb i
  rw [List.count_append]
  constructor
  · by_cases h : i < k
    · have := b2 (Or.inl h)
      omega
    · have := a2 (Or.inr (by omega))
      omega
  · intro h
    have := a2 (by omega)
    have := b2 (by omega)
    omega

theorem once_other {l : List String} {n m : ℕ} (h : ∀ x ∈ l, ¬ IsTmp x) : Once l n m := by
  intro i
  have : l.count (tmp i) = 0 := List.count_eq_zero.2 fun hm => h _ hm ⟨i, rfl⟩
  exact ⟨by omega, fun _ => this⟩

theorem once_range (n k : ℕ) : Once ((List.range' n k).map tmp) n (n + k) := by
  intro i
  have hc : ∀ l : List ℕ, (l.map tmp).count (tmp i) = l.count i := by
    intro l
    induction l with
    | nil => rfl
    | cons x l ih =>
      rw [List.map_cons, List.count_cons, List.count_cons, ih]
      by_cases hx : x = i
      · simp [hx]
      · have : tmp x ≠ tmp i := fun h => hx (tmp_inj h)
        simp [hx, this]
  rw [hc]
  refine ⟨List.nodup_iff_count.1 List.nodup_range' i, fun h => List.count_eq_zero.2 fun hm => ?_⟩
  rw [List.mem_range'_1] at hm
  omega

theorem boundTarget_names {t : Target} {x : String} (h : x ∈ boundTarget t) : x ∈ namesTarget t := by
  cases t with
  | name y => exact h
  | store k es => simp [boundTarget] at h

theorem boundSmall_names {s : Small} {x : String} (h : x ∈ boundSmall s) : x ∈ namesSmall s := by
  cases s with
  | assign ts v =>
    simp only [boundSmall, List.mem_flatMap] at h
    obtain ⟨t, ht, hx⟩ := h
    simp only [namesSmall, List.mem_append, List.mem_flatMap]
    exact Or.inl ⟨t, ht, boundTarget_names hx⟩
  | aug o t v =>
    simp only [namesSmall, List.mem_append]
    exact Or.inl (boundTarget_names h)
  | _ => simp [boundSmall] at h

mutual

theorem once_stmt : ∀ (s : Stmt) (n : ℕ), SingleStmt s → (∀ x ∈ namesStmt s, ¬ IsTmp x) → n ≤ (isoStmt s n).2 ∧ Once (boundBlock (isoStmt s n).1) n (isoStmt s n).2
  | .line l, n, h, hn => by
    simp only [SingleStmt] at h
    obtain ⟨s, rfl, haug⟩ := h
    obtain ⟨-, -, h3, h4⟩ := isoSmall_clear s n haug
    simp only [isoStmt, isoLine, List.append_nil, bound_append, bound_ins]
    rw [h3]
    refine ⟨by omega, (once_range n (isoSmall s n).2.length).append (k := n + (isoSmall s n).2.length) ?_ (by omega) (by omega)⟩
    apply once_other
    intro x hx
    simp only [boundBlock, boundStmt, List.flatMap_cons, List.flatMap_nil, List.append_nil, h4] at hx
    exact hn x (by simpa [namesStmt] using boundSmall_names hx)
  | .cond t a b, n, h, hn => by
    simp only [SingleStmt] at h
    simp only [namesStmt, List.mem_append] at hn
    simp only [isoStmt, boundBlock, boundStmt, List.append_nil]
    obtain ⟨a1, a2⟩ := once_block a (n + taken t) h.1 fun x hx => hn x (Or.inl (Or.inr hx))
    obtain ⟨b1, b2⟩ := once_block b (isoBlock a (n + taken t)).2 h.2 fun x hx => hn x (Or.inr hx)
    exact ⟨by omega, ((once_other (l := []) (n := n) (m := n + taken t) nofun).append a2 (by omega) a1).append b2 (by omega) b1⟩
  | .loop t a, n, h, hn => by
    simp only [SingleStmt] at h
    simp only [namesStmt, List.mem_append] at hn
    simp only [isoStmt, boundBlock, boundStmt, List.append_nil]
    obtain ⟨a1, a2⟩ := once_block a (n + taken t) h fun x hx => hn x (Or.inr hx)
    exact ⟨by omega, (once_other (l := []) (n := n) (m := n + taken t) nofun).append a2 (by omega) a1⟩
  | .each y it a, n, h, hn => by
    simp only [SingleStmt] at h
    simp only [namesStmt, List.mem_append, List.mem_cons] at hn
    simp only [isoStmt, boundBlock, boundStmt, List.append_nil]
    obtain ⟨a1, a2⟩ := once_block a (n + taken it) h fun x hx => hn x (Or.inr hx)
    refine ⟨by omega, (once_other (l := [y]) (n := n) (m := n + taken it) ?_).append a2 (by omega) a1⟩
    intro x hx
    exact hn x (Or.inl (Or.inl (by simpa using hx)))

theorem once_block : ∀ (b : List Stmt) (n : ℕ), SingleBlock b → (∀ x ∈ namesBlock b, ¬ IsTmp x) → n ≤ (isoBlock b n).2 ∧ Once (boundBlock (isoBlock b n).1) n (isoBlock b n).2
  | [], n, h, hn => by
    simp only [isoBlock, boundBlock]
    exact ⟨Nat.le_refl _, once_other nofun⟩
  | s :: l, n, h, hn => by
    simp only [SingleBlock] at h
    simp only [namesBlock, List.mem_append] at hn
    simp only [isoBlock, bound_append]
    obtain ⟨a1, a2⟩ := once_stmt s n h.1 fun x hx => hn x (Or.inl hx)
    obtain ⟨b1, b2⟩ := once_block l (isoStmt s n).2 h.2 fun x hx => hn x (Or.inr hx)
    exact ⟨by omega, a2.append b2 a1 b1⟩

end

mutual

theorem iso_cands : ∀ (i : Bool) (e : Expr) (n : ℕ), cands (iso i e n).1 + insSum (iso i e n).2 = cands e
  | _, .name x, n => by simp [iso, cands, insSum]
  | _, .lit k, n => by simp [iso, cands, insSum]
  | i, .op k l, n => by
    simp only [iso, cands]
    exact isoAll_cands i l n
  | i, .ctrl k fixed xs l, n => by
    simp only [iso, cands]
    exact isoAll_cands (i || fixed) l n
  | i, .cand e, n => by
    have h := iso_cands i e n
    simp only [iso]
    split
    · simp only [cands]
      omega
    · simp only [cands, insSum_append]
      have : insSum [(n + (iso i e n).2.length, Expr.cand (iso i e n).1)] = cands (iso i e n).1 + 1 := by simp [insSum, cands]
      omega

theorem isoAll_cands : ∀ (i : Bool) (l : List Expr) (n : ℕ), candsAll (isoAll i l n).1 + insSum (isoAll i l n).2 = candsAll l
  | _, [], n => by simp [isoAll, candsAll, insSum]
  | i, e :: l, n => by
    have h := iso_cands i e n
    have k := isoAll_cands i l (n + (iso i e n).2.length)
    simp only [isoAll, candsAll, insSum_append]
    omega

end

theorem isoTop_cands (e : Expr) (n : ℕ) : cands (isoTop e n).1 + insSum (isoTop e n).2 = cands e := by
  unfold isoTop
  split
  · rename_i e
    have := iso_cands false e n
    simp only [cands]
    omega
  · exact iso_cands false _ n

theorem isoTargets_cands : ∀ (ts : List Target) (n : ℕ),
    ((isoTargets ts n).1.map (sumTarget cands)).sum + insSum (isoTargets ts n).2 = (ts.map (sumTarget cands)).sum
  | [], n => by simp [isoTargets, insSum]
  | .name x :: ts, n => by
    have := isoTargets_cands ts n
    simp only [isoTargets, List.map_cons, List.sum_cons, sumTarget]
    omega
  | .store k es :: ts, n => by
    have h := isoAll_cands false es n
    have := isoTargets_cands ts (n + (isoAll false es n).2.length)
    simp only [isoTargets, List.map_cons, List.sum_cons, sumTarget, insSum_append, ← candsAll_sum]
    omega

theorem isoSmall_cands (s : Small) (n : ℕ) (haug : ∀ o t v, s ≠ .aug o t v) : sumSmall cands (isoSmall s n).1 + insSum (isoSmall s n).2 = sumSmall cands s := by
  match s, haug with
  | .aug o t v, haug => exact absurd rfl (haug o t v)
  | .assign ts v, _ =>
    have h := isoTargets_cands ts n
    have k := isoTop_cands v (n + (isoTargets ts n).2.length)
    simp only [isoSmall, sumSmall, insSum_append]
    omega
  | .expr e, _ => exact isoTop_cands e n
  | .ret none, _ => rfl
  | .ret (some e), _ => exact isoTop_cands e n
  | .throw e, _ => exact isoTop_cands e n
  | .check t none, _ => exact iso_cands false t n
  | .check t (some m), _ =>
    have h := iso_cands false t n
    have k := iso_cands false m (n + (iso false t n).2.length)
    simp only [isoSmall, sumSmall, insSum_append, Option.map_some, Option.getD_some]
    omega
  | .pass, _ => rfl
  | .brk, _ => rfl
  | .cont, _ => rfl

theorem sumBlock_append (f : Expr → ℕ) : ∀ a b : List Stmt, sumBlock f (a ++ b) = sumBlock f a + sumBlock f b
  | [], b => by simp [sumBlock]
  | s :: a, b => by simp [sumBlock, sumBlock_append f a b, Nat.add_assoc]

theorem sum_ins : ∀ ins : List (ℕ × Expr), sumBlock cands (ins.map insertion) = insSum ins
  | [] => by simp [sumBlock, insSum]
  | i :: ins => by
    have := sum_ins ins
    simp only [insSum] at this
    simp [sumBlock, this, insertion, sumStmt, sumSmall, sumTarget, insSum]

mutual

theorem cands_stmt : ∀ (s : Stmt) (n : ℕ), SingleStmt s → sumBlock cands (isoStmt s n).1 = sumStmt cands s
  | .line l, n, h => by
    simp only [SingleStmt] at h
    obtain ⟨s, rfl, haug⟩ := h
    have := isoSmall_cands s n haug
    simp only [isoStmt, isoLine, List.append_nil, sumBlock_append, sum_ins, sumBlock, sumStmt, List.map_cons, List.map_nil, List.sum_cons, List.sum_nil]
    omega
  | .cond t a b, n, h => by
    simp only [SingleStmt] at h
    simp only [isoStmt, sumBlock, sumStmt, cands_block a _ h.1, cands_block b _ h.2]
    omega
  | .loop t a, n, h => by
    simp only [SingleStmt] at h
    simp only [isoStmt, sumBlock, sumStmt, cands_block a _ h]
    omega
  | .each x it a, n, h => by
    simp only [SingleStmt] at h
    simp only [isoStmt, sumBlock, sumStmt, cands_block a _ h]
    omega

theorem cands_block : ∀ (b : List Stmt) (n : ℕ), SingleBlock b → sumBlock cands (isoBlock b n).1 = sumBlock cands b
  | [], n, h => by simp [isoBlock, sumBlock]
  | s :: l, n, h => by
    simp only [SingleBlock] at h
    simp only [isoBlock, sumBlock_append, cands_stmt s n h.1, cands_block l _ h.2, sumBlock]

end

mutual

theorem mark_cands (p : Kind → List Expr → Bool) : ∀ e : Expr, cands e = 0 → cands (mark p e) = chosen p e
  | .name x, _ => rfl
  | .lit k, _ => rfl
  | .op k l, h => by
    simp only [cands] at h
    have := markAll_cands p l h
    simp only [mark, chosen]
    split <;> simp only [cands] <;> omega
  | .ctrl k fixed xs l, h => by
    simp only [cands] at h
    have := markAll_cands p l h
    simpa only [mark, chosen, cands] using this
  | .cand e, h => by simp [cands] at h

theorem markAll_cands (p : Kind → List Expr → Bool) : ∀ l : List Expr, candsAll l = 0 → candsAll (markAll p l) = chosenAll p l
  | [], _ => rfl
  | e :: l, h => by
    simp only [candsAll] at h
    have := mark_cands p e (by omega)
    have := markAll_cands p l (by omega)
    simp only [markAll, candsAll, chosenAll]
    omega

end

theorem markTarget_cands (p : Kind → List Expr → Bool) (t : Target) (h : sumTarget cands t = 0) : sumTarget cands (markTarget p t) = sumTarget (chosen p) t := by
  cases t with
  | name x => rfl
  | store k es =>
    simp only [sumTarget, ← candsAll_sum, ← chosenAll_sum, markTarget] at h ⊢
    exact markAll_cands p es h

theorem markTargets_cands (p : Kind → List Expr → Bool) : ∀ ts : List Target, (ts.map (sumTarget cands)).sum = 0 →
    ((ts.map (markTarget p)).map (sumTarget cands)).sum = (ts.map (sumTarget (chosen p))).sum
  | [], _ => rfl
  | t :: ts, h => by
    simp only [List.map_cons, List.sum_cons] at h ⊢
    rw [markTarget_cands p t (by omega), markTargets_cands p ts (by omega)]

theorem markSmall_cands (p : Kind → List Expr → Bool) (s : Small) (h : sumSmall cands s = 0) : sumSmall cands (markSmall p s) = sumSmall (chosen p) s := by
  cases s with
  | assign ts v =>
    simp only [sumSmall, markSmall] at h ⊢
    rw [markTargets_cands p ts (by omega), mark_cands p v (by omega)]
  | aug o t v =>
    simp only [sumSmall, markSmall] at h ⊢
    rw [markTarget_cands p t (by omega), mark_cands p v (by omega)]
  | expr e => exact mark_cands p e h
  | ret e =>
    cases e with
    | none => rfl
    | some e => exact mark_cands p e h
  | throw e => exact mark_cands p e h
  | check t m =>
    cases m with
    | none =>
      simp only [sumSmall, markSmall, Option.map_none, Option.getD_none, Nat.add_zero] at h ⊢
      exact mark_cands p t h
    | some m =>
      simp only [sumSmall, markSmall, Option.map_some, Option.getD_some] at h ⊢
      rw [mark_cands p t (by omega), mark_cands p m (by omega)]
  | pass => rfl
  | brk => rfl
  | cont => rfl

theorem markLine_cands (p : Kind → List Expr → Bool) : ∀ l : List Small, (l.map (sumSmall cands)).sum = 0 →
    ((l.map (markSmall p)).map (sumSmall cands)).sum = (l.map (sumSmall (chosen p))).sum
  | [], _ => rfl
  | s :: l, h => by
    simp only [List.map_cons, List.sum_cons] at h ⊢
    rw [markSmall_cands p s (by omega), markLine_cands p l (by omega)]

mutual

theorem markStmt_cands (p : Kind → List Expr → Bool) : ∀ s : Stmt, sumStmt cands s = 0 → sumStmt cands (markStmt p s) = sumStmt (chosen p) s
  | .line l, h => by
    simp only [sumStmt, markStmt] at h ⊢
    exact markLine_cands p l h
  | .cond t a b, h => by
    simp only [sumStmt, markStmt] at h ⊢
    rw [mark_cands p t (by omega), markBlock_cands p a (by omega), markBlock_cands p b (by omega)]
  | .loop t a, h => by
    simp only [sumStmt, markStmt] at h ⊢
    rw [mark_cands p t (by omega), markBlock_cands p a (by omega)]
  | .each x it a, h => by
    simp only [sumStmt, markStmt] at h ⊢
    rw [mark_cands p it (by omega), markBlock_cands p a (by omega)]

theorem markBlock_cands (p : Kind → List Expr → Bool) : ∀ b : List Stmt, sumBlock cands b = 0 → sumBlock cands (markBlock p b) = sumBlock (chosen p) b
  | [], _ => rfl
  | s :: l, h => by
    simp only [sumBlock, markBlock] at h ⊢
    rw [markStmt_cands p s (by omega), markBlock_cands p l (by omega)]

end

theorem sum_split_lines (f : Expr → ℕ) : ∀ l : List Small, sumBlock f (l.map fun s => .line [s]) = (l.map (sumSmall f)).sum
  | [] => rfl
  | s :: l => by simp [sumBlock, sumStmt, sum_split_lines f l]

mutual

theorem sum_splitStmt (f : Expr → ℕ) : ∀ s : Stmt, sumBlock f (splitStmt s) = sumStmt f s
  | .line l => by simp only [splitStmt, sumStmt]; exact sum_split_lines f l
  | .cond t a b => by simp only [splitStmt, sumBlock, sumStmt, sum_splitBlock f a, sum_splitBlock f b, Nat.add_zero]
  | .loop t a => by simp only [splitStmt, sumBlock, sumStmt, sum_splitBlock f a, Nat.add_zero]
  | .each x it a => by simp only [splitStmt, sumBlock, sumStmt, sum_splitBlock f a, Nat.add_zero]

theorem sum_splitBlock (f : Expr → ℕ) : ∀ b : List Stmt, sumBlock f (splitBlock b) = sumBlock f b
  | [] => rfl
  | s :: l => by simp only [splitBlock, sumBlock_append, sum_splitStmt f s, sum_splitBlock f l, sumBlock]

end

/-! ### Specification: which operations are replaced -/

/-- Numbers, strings and operators on them. -/
inductive Literal : Expr → Prop
  | lit (k : ℕ) : Literal (.lit k)
  | unary (o : ℕ) (l : List Expr) (h : ∀ e ∈ l, Literal e) : Literal (.op (.unary o) l)
  | binary (o : ℕ) (l : List Expr) (h : ∀ e ∈ l, Literal e) : Literal (.op (.binary o) l)

mutual

theorem literal_iff : ∀ e : Expr, simpleLiteral e = true ↔ Literal e
  | .lit k => ⟨fun _ => .lit k, fun _ => by simp [simpleLiteral]⟩
  | .name _ => ⟨fun h => by simp [simpleLiteral] at h, fun h => nomatch h⟩
  | .op (.unary o) l => by
    simp only [simpleLiteral]
    rw [literals_iff l]
    exact ⟨fun h => .unary o l h, fun h => by cases h with | unary _ _ h => exact h⟩
  | .op (.binary o) l => by
    simp only [simpleLiteral]
    rw [literals_iff l]
    exact ⟨fun h => .binary o l h, fun h => by cases h with | binary _ _ h => exact h⟩
  | .op .call _ => ⟨fun h => by simp [simpleLiteral] at h, fun h => nomatch h⟩
  | .op (.plain _) _ => ⟨fun h => by simp [simpleLiteral] at h, fun h => nomatch h⟩
  | .ctrl .. => ⟨fun h => by simp [simpleLiteral] at h, fun h => nomatch h⟩
  | .cand _ => ⟨fun h => by simp [simpleLiteral] at h, fun h => nomatch h⟩

theorem literals_iff : ∀ l : List Expr, simpleLiterals l = true ↔ ∀ e ∈ l, Literal e
  | [] => by simp [simpleLiterals]
  | e :: l => by simp [simpleLiterals, literal_iff e, literals_iff l]

end

/-! ### Properties -/

/-- **C85.** Which operations are replaced: calls of anything but `super` and the functions to leave alone, and operators with an operand that is not a literal. -/
theorem candidates_iff (bypass : Expr → Bool) :
    (∀ f l, isCandidate bypass .call (f :: l) = true ↔ f ≠ .name "super" ∧ bypass f = false) ∧
    (∀ o l, isCandidate bypass (.unary o) l = true ↔ ∃ e ∈ l, ¬ Literal e) ∧
    (∀ o l, isCandidate bypass (.binary o) l = true ↔ ∃ e ∈ l, ¬ Literal e) ∧
    ∀ o l, isCandidate bypass (.plain o) l = false := by
  have key : ∀ l : List Expr, (!simpleLiterals l) = true ↔ ∃ e ∈ l, ¬ Literal e := fun l => by
    have := literals_iff l
    cases hs : simpleLiterals l with
    | true => rw [hs] at this; simp; exact this.1 rfl
    | false => rw [hs] at this; simp at this; simpa using this
  refine ⟨fun f l => ?_, fun o l => by simp only [isCandidate]; exact key l, fun o l => by simp only [isCandidate]; exact key l, fun _ _ => by simp [isCandidate]⟩
  by_cases hf : f = .name "super"
  · subst hf; simp [isCandidate]
  · rw [isCandidate]
    · simp [hf]
    · intro h; exact hf h

/-- **C85.** Whatever the function, every line of the preprocessed function is one statement, augmented assignments are gone, and a candidate in a line is the
whole value of an assignment, expression statement, `return` or `raise`, with none within it, except in comprehensions and conditional expressions. -/
theorem candidates_isolated (p : Kind → List Expr → Bool) (b : List Stmt) : WholeBlock (preprocess p b) := whole_block _ 1 (single_block p b)

/-- **C85.** Every temporary is assigned in one place only, in functions that do not use the names of temporaries. -/
theorem temporaries_once (p : Kind → List Expr → Bool) (b : List Stmt) (hn : ∀ x ∈ namesBlock b, ¬ IsTmp x) (i : ℕ) :
    (boundBlock (preprocess p b)).count (tmp i) ≤ 1 := by
  have n3 : ∀ x ∈ namesBlock (markBlock p (expandBlock (splitBlock b))), ¬ IsTmp x := fun x hx => by
    rw [names_markBlock] at hx
    exact hn x ((names_splitBlock b).1 ((names_expandBlock _).1 hx))
  exact ((once_block _ 1 (single_block p b) n3).2 i).1

/-- **C85.** No candidate is lost and none is doubled: the preprocessed function has as many as the function, with its augmented assignments written out, has
operations to replace. -/
theorem candidates_kept (p : Kind → List Expr → Bool) (b : List Stmt) (h : sumBlock cands (expandBlock (splitBlock b)) = 0) :
    sumBlock cands (preprocess p b) = sumBlock (chosen p) (expandBlock (splitBlock b)) := by
  unfold preprocess
  rw [cands_block _ 1 (single_block p b), markBlock_cands p _ h]

/-! ### Deviations -/

/-- Numbers; the world is the list of what is called so far. `f`, `g`, `self` are global, `call` notes the call and gives the sum of the arguments plus one,
`plain 0` reads how many calls there were, `ctrl 0` is `and`, `ctrl 1` is `lambda`. -/
def toy : Sem ℕ (List ℕ) ℕ where
  lit k := k
  glob x _ := if x = "f" then .ok 100 else if x = "g" then .ok 200 else if x = "self" then .ok 300 else .error 0
  prim k vs w :=
    match k with
    | .call => (.ok (vs.tail.sum + 1), w ++ [vs.sum])
    | .plain 0 => (.ok w.length, w)
    | _ => (.ok vs.sum, w)
  ctrl k ts w :=
    match k, ts with
    | 0, [a, b] =>
      match a [] w with
      | (.error x, w) => (.error x, w)
      | (.ok 0, w) => (.ok 0, w)
      | (.ok _, w) => b [] w
    | _, _ => (.ok 500, w)
  aug _ a b w := (.ok (a + b), w)
  store k vs v w := (.ok (), w ++ [k, vs.sum, v])
  truth v w := (.ok (v != 0), w)
  iter v w := (.ok v, w)
  next _ w := (.ok none, w)
  raised v := v
  failed _ := 1

/-- The calls of a run. -/
def calls (b : List Stmt) : Option (List ℕ) := (execBlock toy 9 b (fun _ => none) []).map fun r => r.2.2

/-- What a run returns: `none` if it does not. -/
def returned (b : List Stmt) : Option ℕ :=
  match execBlock toy 9 b (fun _ => none) [] with
  | some (.ret v, _, _) => v
  | _ => none

def candidate : Kind → List Expr → Bool := isCandidate fun _ => false

def callOf (f : String) (e : Expr) : Expr := .op .call [.name f, e]

/-- `y = 0 and f(7)`. -/
def shortProgram : List Stmt := [.line [.assign [.name "y"] (.ctrl 0 false [] [.lit 0, callOf "f" (.lit 7)])]]

/-- **C85, deviation.** `y = 0 and f(7)` does not call `f`; the preprocessed function does. -/
theorem short_circuit_lost : calls shortProgram = some [] ∧ calls (preprocess candidate shortProgram) = some [107] := by decide +kernel

/-- `h = lambda z: f(z)`; `return 1`. -/
def lambdaProgram : List Stmt := [.line [.assign [.name "h"] (.ctrl 1 false ["z"] [callOf "f" (.name "z")])], .line [.ret (some (.lit 1))]]

/-- **C85, deviation.** The call in a lambda is moved out of it, where its parameter does not exist: the preprocessed function raises. -/
theorem lambda_body_moved : returned lambdaProgram = some 1 ∧ returned (preprocess candidate lambdaProgram) = none := by decide +kernel

/-- `return self.n + f(1)`. -/
def readProgram : List Stmt := [.line [.ret (some (.op (.binary 0) [.op (.plain 0) [.name "self"], callOf "f" (.lit 1)]))]]

/-- **C85, deviation.** An attribute that a call changes is read after the call instead of before it. -/
theorem read_after_call : returned readProgram = some 2 ∧ returned (preprocess candidate readProgram) = some 3 := by decide +kernel

/-- `self[f(1)] = g(2)`. -/
def storeProgram : List Stmt := [.line [.assign [.store 7 [.name "self", callOf "f" (.lit 1)]] (callOf "g" (.lit 2))]]

/-- **C85, deviation.** The call in the target is made before the call that gives the value, instead of after it. -/
theorem target_before_value : calls storeProgram = some [202, 101, 7, 302, 3] ∧ calls (preprocess candidate storeProgram) = some [101, 202, 7, 302, 3] := by
  decide +kernel

/-- `assert 1, f(1)`. -/
def assertProgram : List Stmt := [.line [.check (.lit 1) (some (callOf "f" (.lit 1)))]]

/-- **C85, deviation.** The message of an assertion is evaluated although the assertion holds. -/
theorem message_evaluated : calls assertProgram = some [] ∧ calls (preprocess candidate assertProgram) = some [101] := by decide +kernel

/-- `_tmp_1 = 7; y = f(g(1))`, `return _tmp_1`. -/
def tmpProgram : List Stmt :=
  [.line [.assign [.name "_tmp_1"] (.lit 7), .assign [.name "y"] (callOf "f" (callOf "g" (.lit 1)))], .line [.ret (some (.name "_tmp_1"))]]

/-- **C85, deviation.** A variable that is named like a temporary is overwritten. -/
theorem temporary_clobbers : returned tmpProgram = some 7 ∧ returned (preprocess candidate tmpProgram) = some 2 := by decide +kernel

/-- `self[f(1)] += 1`. -/
def augProgram : List Stmt := [.line [.aug 0 (.store 7 [.name "self", callOf "f" (.lit 1)]) (.lit 1)]]

/-- **C85, deviation.** The call in the target of an augmented assignment is made twice. -/
theorem target_evaluated_twice : calls augProgram = some [101, 7, 302, 303] ∧ calls (preprocess candidate augProgram) = some [101, 101, 7, 302, 303] := by
  decide +kernel

/-- As `toy`, but `+=` changes the value in place: it gives the value it is applied to and notes it. -/
def toyInPlace : Sem ℕ (List ℕ) ℕ := { toy with aug := fun _ a b w => (.ok a, w ++ [a, b]) }

/-- `x = 4`, `x += 1`. -/
def inPlaceProgram : List Stmt := [.line [.assign [.name "x"] (.lit 4)], .line [.aug 0 (.name "x") (.lit 1)]]

/-- **C85, deviation.** `x += y` no longer changes the value of `x` in place, as it does for tensors and lists. -/
theorem in_place_lost : ((execBlock toyInPlace 9 inPlaceProgram (fun _ => none) []).map fun r => (r.2.1 "x", r.2.2)) = some (some 4, [4, 1]) ∧
    ((execBlock toyInPlace 9 (preprocess candidate inPlaceProgram) (fun _ => none) []).map fun r => (r.2.1 "x", r.2.2)) = some (some 5, []) := by decide +kernel

/-! ### Concrete cases -/

/-- `x = f(g(1)) + 2; x += f(x)`, `while x: x = f(x) ...`, `return f(x) + g(x)`. -/
def program : List Stmt :=
  [ .line [.assign [.name "x"] (.op (.binary 0) [callOf "f" (callOf "g" (.lit 1)), .lit 2]), .aug 0 (.name "x") (callOf "f" (.name "x"))],
    .cond (callOf "f" (.name "x")) [.line [.assign [.name "x"] (callOf "f" (callOf "g" (.name "x")))]] [.line [.pass]],
    .line [.ret (some (.op (.binary 0) [callOf "f" (.name "x"), callOf "g" (.name "x")]))] ]

def quietNone : Kind → Prop := fun _ => False

theorem toy_later : ∀ k vs w, w <+: (toy.prim k vs w).2 := by
  intro k vs w
  cases k with
  | plain i => cases i <;> exact List.prefix_rfl
  | call => exact List.prefix_append _ _
  | _ => exact List.prefix_rfl

theorem toy_stable : Stable toy quietNone fun a b => a <+: b where
  refl _ := List.prefix_rfl
  trans _ _ _ := List.IsPrefix.trans
  prim := toy_later
  ctrl := by
    intro k ts w h
    simp only [toy]
    split
    · rename_i a b
      have ha := h a (by simp) [] w
      generalize a [] w = r at ha ⊢
      match r, ha with
      | (.error x, w1), ha => exact ha
      | (.ok 0, w1), ha => exact ha
      | (.ok (n + 1), w1), ha => exact ha.trans (h b (by simp) [] w1)
    · exact List.prefix_rfl
  glob := by
    intro x w w' v _ h
    exact h
  quiet := nofun

theorem toy_rebinds : Rebinds toy := fun _ _ _ _ => by simp [toy]

theorem not_tmp {x : String} (h : x.toList.head? ≠ some '_') : ¬ IsTmp x := by
  rintro ⟨n, rfl⟩
  apply h
  simp [tmp]

/-- The hypotheses of `preprocess_keeps_partial` hold, and five temporaries are made. -/
example : CalmBlock candidate quietNone program ∧ (∀ x ∈ namesBlock program, ¬ IsTmp x) := by
  constructor
  · simp [program, CalmBlock, CalmStmt, CalmSmall, AugCalm, TargetStays, Calm, CalmAll, callOf, MovesAny, Moves, Settled, SettledAll, candidate, isCandidate]
  · intro x hx
    apply not_tmp
    simp [program, namesBlock, namesStmt, namesSmall, namesTarget, names, namesAll, callOf] at hx
    rcases hx with h | h | h | h | h | h | h | h | h | h | h | h | h | h | h <;> subst h <;> decide

example : calls program = some [201, 102, 105, 111, 211, 112, 113, 213] ∧ returned program = some 28 ∧ returned (preprocess candidate program) = some 28 ∧
    boundBlock (preprocess candidate program) = ["_tmp_1", "_tmp_2", "x", "_tmp_3", "x", "_tmp_5", "x", "_tmp_6", "_tmp_7"] ∧
    sumBlock cands (expandBlock (splitBlock program)) = 0 ∧ sumBlock cands (preprocess candidate program) = 11 := by decide +kernel

/-- As `toy`, with all names defined and `plain 1` an attribute that no call changes. -/
def toyTotal : Sem ℕ (List ℕ) ℕ := { toy with glob := fun x _ => .ok x.length }

def quietRead : Kind → Prop := fun k => k = .plain 1

theorem toyTotal_stable : Stable toyTotal quietRead fun a b => a <+: b where
  refl _ := List.prefix_rfl
  trans _ _ _ := List.IsPrefix.trans
  prim := toy_later
  ctrl := toy_stable.ctrl
  glob := by
    intro x w w' v _ h
    exact h
  quiet := by
    intro k hk vs w v w1 h
    subst hk
    simp only [toyTotal, toy, Prod.mk.injEq] at h ⊢
    exact ⟨h.2.symm, fun w' _ => ⟨h.1, trivial⟩⟩

theorem toyTotal_never : NeverRaises toyTotal quietRead where
  glob x _ := ⟨x.length, rfl⟩
  prim := by
    intro k hk vs w
    subst hk
    exact ⟨vs.sum, rfl⟩

/-- `while self.done: self.n += f(1)`, `raise f(self.n + g(2))`. -/
def raiseProgram : List Stmt :=
  [ .loop (.op (.plain 1) [.name "self"]) [.line [.aug 0 (.store 1 [.name "self"]) (callOf "f" (.lit 1)), .brk]],
    .line [.throw (callOf "f" (.op (.binary 0) [.op (.plain 1) [.name "self"], callOf "g" (.lit 2)]))] ]

/-- The hypotheses of `preprocess_raises_partial` hold, for a run that raises. -/
example : CalmBlock candidate quietRead raiseProgram ∧ (∀ x ∈ namesBlock raiseProgram, ¬ IsTmp x) ∧ Rebinds toyTotal ∧
    ((execBlock toyTotal 9 raiseProgram (fun _ => none) []).map fun r => (match r.1 with | .exc x => some x | _ => none, r.2.2)) = some (some 8, [2, 1, 4, 6, 3, 8]) := by
  refine ⟨?_, ?_, fun _ _ _ _ => by simp [toyTotal, toy], ?_⟩
  · simp [raiseProgram, CalmBlock, CalmStmt, CalmSmall, AugCalm, Calm, CalmAll, callOf, MovesAny, Moves, Settled, SettledAll, candidate, isCandidate, quietRead]
  · intro x hx
    apply not_tmp
    simp [raiseProgram, namesBlock, namesStmt, namesSmall, namesTarget, names, namesAll, callOf] at hx
    rcases hx with h | h | h | h <;> subst h <;> decide
  · decide +kernel

end FF.Py
