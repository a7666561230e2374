/-!
# `super()` in converted methods

Models `_AnchorBareSuperCalls`, `_owner_class_name` and `_rewrite_super_calls` of
`src/fastforward/_autoquant/convert.py` (lines 24–83), the search for the class in
which a method is defined (`_resolve_method_owner_and_name` in `autoquant.py`,
299–326) and the bases of the generated class (`builder.py`, 222–228), with Python's
meaning of `super` and its order of classes.

Simplifications: of a method body, the expressions of names, attributes and calls
with positional arguments; the results of calls are symbolic: which function is
called with which arguments.
-/

namespace FF.Super

/-! ## Model -/

/-- Classes. -/
abbrev Cls := Nat

/-- `pick`, the first head of a list that is in no tail: a step of Python's order of
classes. -/
def candidate (all : List (List Cls)) : List (List Cls) → Option Cls
  | [] => none
  | [] :: r => candidate all r
  | (c :: _) :: r => if all.any (fun l => l.tail.contains c) then candidate all r else some c

/-- Takes a class off the heads. -/
def dropHead (c : Cls) (l : List Cls) : List Cls := if l.head? = some c then l.tail else l

/-- Python's merge of orders of classes (C3), with a bound for the number of steps. -/
def merge : Nat → List (List Cls) → Option (List Cls)
  | 0, ls => if ls.all List.isEmpty then some [] else none
  | n + 1, ls =>
    if ls.all List.isEmpty then some []
    else match candidate ls ls with
      | none => none
      | some c => (merge n (ls.map (dropHead c))).map (c :: ·)

/-- The order of classes of a new class, from those of its bases; `none` is a
`TypeError`. -/
def mro (c : Cls) (bases : List (List Cls)) : Option (List Cls) :=
  let ls := bases ++ [bases.filterMap List.head?]
  (merge (ls.map List.length).sum ls).map (c :: ·)

/-- `QuantizedModuleBuilder.build` (`builder.py` 222–228): the bases of the
generated class are `QuantizedModule` and the class converted. -/
def quantizedMro (q : Cls) (quantizedModule original : List Cls) : Option (List Cls) :=
  mro q [quantizedModule, original]

mutual
/-- Expressions. -/
inductive Expr where
  | name (n : String)
  | attr (e : Expr) (m : String)
  | call (f : Expr) (args : Args)
/-- Arguments. -/
inductive Args where
  | nil
  | cons (e : Expr) (rest : Args)
end

/-- `super()`. -/
def bare : Expr := .call (.name "super") .nil

/-- `super(owner, self)`. -/
def anchoredSuper (owner self : String) : Expr :=
  .call (.name "super") (.cons (.name owner) (.cons (.name self) .nil))

/-- `leave_Call` (`convert.py` 31–59), on a call whose parts have been rewritten. -/
def leaveCall (owner self : String) (f : Expr) (args : Args) : Expr :=
  match f with
  | .attr (.call (.name "super") .nil) m => .call (.attr (anchoredSuper owner self) m) args
  | f => .call f args

mutual
/-- `cst.visit(_AnchorBareSuperCalls(owner, self))`. -/
def anchor (owner self : String) : Expr → Expr
  | .name n => .name n
  | .attr e m => .attr (anchor owner self e) m
  | .call f args => leaveCall owner self (anchor owner self f) (anchorArgs owner self args)
/-- The same for arguments. -/
def anchorArgs (owner self : String) : Args → Args
  | .nil => .nil
  | .cons e r => .cons (anchor owner self e) (anchorArgs owner self r)
end

/-- `MethodType` (`type_common.py`). -/
inductive MethodType where
  | method | classMethod | staticMethod | noMethod
  deriving DecidableEq

/-- `_owner_class_name` (`convert.py` 62–66), of a qualified name split at dots. -/
def ownerClassName (parts : List String) : Option String :=
  if parts.length < 2 then none else parts.dropLast.getLast?

/-- `_rewrite_super_calls` (`convert.py` 69–83). -/
def rewriteSuper (type : MethodType) (instanceVar : Option String) (parts : List String) (e : Expr) : Expr :=
  match type, instanceVar with
  | .method, some self =>
    match ownerClassName parts with
    | none => e
    | some owner => anchor owner self e
  | _, _ => e

/-- Functions. -/
abbrev Fn := Nat

/-- `_resolve_method_owner_and_name` (`autoquant.py` 299–326): the class and the
name under which it has the function.  `dict` gives the members of a class, in
order, after `_unwrap_method_owner_member`. -/
def resolveOwner (dict : Cls → List (String × Fn)) (order : List Cls) (type : Cls) (name : String) (f : Fn) :
    Cls × String :=
  match order.find? fun c => (dict c).lookup name == some f with
  | some c => (c, name)
  | none =>
    match order.findSome? fun c => ((dict c).find? fun p => p.2 == f).map fun p => (c, p.1) with
    | some r => r
    | none => (type, name)

/-! ## Specification: Python's `super` -/

/-- Values: the instance, classes, `super` itself, an object that looks up after a
class, a method of a class on the instance; and, symbolically, attributes, functions
about to be called, with the arguments so far, and other values. -/
inductive Val where
  | self
  | cls (c : Cls)
  | superType
  | proxy (after : Cls)
  | method (definer : Cls) (m : String)
  | attrOf (v : Val) (m : String)
  | app (f : Val) (a : Val)
  | result (f : Val)
  | other (n : Nat)
  deriving DecidableEq

/-- What a method runs with: the class in whose body it is, the order of the classes
of the instance, the name of its first parameter, other names, and what classes
define. -/
structure Frame where
  cell : Cls
  order : List Cls
  selfName : String
  names : String → Option Val
  defines : Cls → String → Bool

/-- The first class after a class in the order that defines a name. -/
def Frame.after (fr : Frame) (c : Cls) (m : String) : Option Cls :=
  (fr.order.dropWhile (· ≠ c)).tail.find? (fr.defines · m)

/-- The value of a call of `super`: without arguments, it looks up after the class
in whose body the method is; otherwise after a class of the instance. -/
def Frame.superOf (fr : Frame) : List Val → Option Val
  | [] => some (.proxy fr.cell)
  | [.cls c, .self] => if c ∈ fr.order then some (.proxy c) else none
  | _ => none

mutual
/-- The value of an expression; `none` is an exception. -/
def eval (fr : Frame) : Expr → Option Val
  | .name n => if n = "super" then some .superType else if n = fr.selfName then some .self else fr.names n
  | .attr e m =>
    match eval fr e with
    | none => none
    | some (.proxy c) => (fr.after c m).map (.method · m)
    | some v => some (.attrOf v m)
  | .call f args =>
    match eval fr f, evalArgs fr args with
    | some .superType, some vs => fr.superOf vs
    | some v, some vs => some (.result (vs.foldl .app v))
    | _, _ => none
/-- Values of arguments. -/
def evalArgs (fr : Frame) : Args → Option (List Val)
  | .nil => some []
  | .cons e r =>
    match eval fr e, evalArgs fr r with
    | some v, some vs => some (v :: vs)
    | _, _ => none
end

mutual
/-- Every `super()` in the expression is the receiver of a call, as in
`super().m(x)`, and `super` is not used otherwise, but for calls with arguments. -/
def OnlyCalled : Expr → Prop
  | .name n => n ≠ "super"
  | .attr e _ => OnlyCalled e
  | .call f args => OnlyCalledArgs args ∧
      ((∃ m, f = .attr bare m) ∨ (f = .name "super" ∧ args ≠ .nil) ∨ OnlyCalled f)
/-- The same for arguments. -/
def OnlyCalledArgs : Args → Prop
  | .nil => True
  | .cons e r => OnlyCalled e ∧ OnlyCalledArgs r
end

/-- The value has nothing to do with the generated classes, and is not `super`. -/
def Foreign (q qm : Cls) (v : Val) : Prop :=
  v ≠ .superType ∧ v ≠ .cls q ∧ v ≠ .cls qm ∧ v ≠ .proxy q ∧ v ≠ .proxy qm

/-- What a class finds under a name in an order: the first class that has it. -/
def lookup (dict : Cls → List (String × Fn)) : List Cls → String → Option (Cls × Fn)
  | [], _ => none
  | c :: r, m =>
    match (dict c).lookup m with
    | some f => some (c, f)
    | none => lookup dict r m

/-! ## Lemmas -/

theorem merge_sublist : ∀ (n : Nat) (l a : List Cls) (e : List (List Cls)), l.length ≤ n → a.Sublist l → l.Nodup →
    (∀ x ∈ e, x = []) → merge n (a :: l :: e) = some l := by
  intro n
  induction n with
  | zero =>
    intro l a e hn hs _ he
    have hl : l = [] := List.length_eq_zero_iff.1 (Nat.le_zero.1 hn)
    subst hl
    have ha : a = [] := List.sublist_nil.1 hs
    subst ha
    unfold merge
    rw [if_pos]
    simp only [List.all_cons, List.isEmpty_nil, Bool.true_and, List.all_eq_true]
    intro x hx
    rw [he x hx]; rfl
  | succ n ih =>
    intro l a e hn hs hnd he
    cases l with
    | nil =>
      have ha : a = [] := List.sublist_nil.1 hs
      subst ha
      unfold merge
      rw [if_pos]
      simp only [List.all_cons, List.isEmpty_nil, Bool.true_and, List.all_eq_true]
      intro x hx
      rw [he x hx]; rfl
    | cons h l =>
      have hnh : h ∉ l := (List.nodup_cons.1 hnd).1
      have hnl : l.Nodup := (List.nodup_cons.1 hnd).2
      have hcont : ∀ (c : Cls) (l : List Cls), c ∉ l → l.contains c = false := by
        intro c l hc
        cases hb : l.contains c with
        | false => rfl
        | true => exact absurd (List.contains_iff_mem.1 hb) hc
      have hemap : ∀ c, e.map (dropHead c) = e := by
        intro c
        have : ∀ x ∈ e, dropHead c x = x := by
          intro x hx
          rw [he x hx]; rfl
        exact (List.map_congr_left this).trans (List.map_id' e)
      have heany : ∀ c, e.any (fun l => l.tail.contains c) = false := by
        intro c
        rw [List.any_eq_false]
        intro x hx
        rw [he x hx]
        simp
      have step : ∀ a' : List Cls, candidate (a :: (h :: l) :: e) (a :: (h :: l) :: e) = some h →
          dropHead h a = a' → a'.Sublist l → merge (n + 1) (a :: (h :: l) :: e) = some (h :: l) := by
        intro a' hc ha hs'
        unfold merge
        rw [if_neg (by simp)]
        rw [hc]
        simp only [List.map_cons, ha, hemap]
        have : dropHead h (h :: l) = l := by simp [dropHead]
        rw [this, ih l a' e (by simp only [List.length_cons] at hn; omega) hs' hnl he]
        rfl
      cases a with
      | nil =>
        refine step [] ?_ rfl (List.nil_sublist l)
        simp only [candidate, List.any_cons, List.tail_nil, List.tail_cons, hcont h l hnh, heany]
        rfl
      | cons x a =>
        by_cases hx : x = h
        · subst hx
          have hs' : a.Sublist l := by
            cases hs with
            | cons _ hs => exact absurd (hs.subset (List.mem_cons_self)) hnh
            | cons_cons _ hs => exact hs
          have hxa : x ∉ a := fun hm => hnh (hs'.subset hm)
          refine step a ?_ ?_ hs'
          · simp only [candidate, List.any_cons, List.tail_cons, hcont x l hnh, hcont x a hxa, heany]
            rfl
          · simp [dropHead]
        · have hs' : (x :: a).Sublist l := by
            cases hs with
            | cons _ hs => exact hs
            | cons_cons _ hs => exact absurd rfl hx
          have hxl : x ∈ l := hs'.subset List.mem_cons_self
          have hha : h ∉ a := fun hm => hnh (hs'.subset (List.mem_cons_of_mem _ hm))
          refine step (x :: a) ?_ ?_ hs'
          · have h1 : l.contains x = true := List.contains_iff_mem.2 hxl
            simp only [candidate, List.any_cons, List.tail_cons, h1, hcont h l hnh, hcont h a hha, heany,
              Bool.true_or, Bool.or_true, if_true]
            rfl
          · unfold dropHead
            rw [if_neg]
            intro hh
            exact hx (Option.some.inj hh)

theorem leaveCall_cases (owner self : String) (f : Expr) (args : Args) :
    (∃ m, f = .attr bare m ∧ leaveCall owner self f args = .call (.attr (anchoredSuper owner self) m) args) ∨
      ((∀ m, f ≠ .attr bare m) ∧ leaveCall owner self f args = .call f args) := by
  unfold leaveCall
  split
  · rename_i m
    exact Or.inl ⟨m, rfl, rfl⟩
  · rename_i hn
    exact Or.inr ⟨fun m h => hn m h, rfl⟩

theorem anchor_bare {owner self : String} {e : Expr} (h : anchor owner self e = bare) : e = bare := by
  cases e with
  | name n => simp only [anchor, bare] at h; cases h
  | attr e m => simp only [anchor, bare] at h; cases h
  | call f args =>
    rw [anchor] at h
    rcases leaveCall_cases owner self (anchor owner self f) (anchorArgs owner self args) with ⟨m, -, h2⟩ | ⟨-, h2⟩
    · rw [h2] at h
      unfold bare at h
      injection h with h1 _
      cases h1
    · rw [h2] at h
      unfold bare at h
      injection h with h1 h3
      cases args with
      | cons e r => simp only [anchorArgs] at h3; cases h3
      | nil =>
        cases f with
        | name n => simp only [anchor] at h1; cases h1; rfl
        | attr e m => simp only [anchor] at h1; cases h1
        | call f a =>
          rw [anchor] at h1
          rcases leaveCall_cases owner self (anchor owner self f) (anchorArgs owner self a) with ⟨m, -, h4⟩ | ⟨-, h4⟩
          · rw [h4] at h1; cases h1
          · rw [h4] at h1; cases h1

theorem not_onlyCalled_bare : ¬ OnlyCalled bare := by
  intro h
  simp only [bare, OnlyCalled] at h
  rcases h.2 with ⟨m, h⟩ | h | h
  · cases h
  · exact h.2 rfl
  · exact h rfl

theorem anchor_attr_bare {owner self : String} {e : Expr} {m : String} (h : anchor owner self e = .attr bare m) :
    e = .attr bare m := by
  cases e with
  | name n => simp only [anchor] at h; cases h
  | attr e m' =>
    simp only [anchor] at h
    injection h with h1 h2
    rw [anchor_bare h1, h2]
  | call f a =>
    rw [anchor] at h
    rcases leaveCall_cases owner self (anchor owner self f) (anchorArgs owner self a) with ⟨m, -, h4⟩ | ⟨-, h4⟩
    · rw [h4] at h; cases h
    · rw [h4] at h; cases h

/-- The frames of the original method and of the converted one. -/
structure Related (fr fr' : Frame) (q qm : Cls) : Prop where
  order : fr'.order = q :: qm :: fr.order
  selfName : fr'.selfName = fr.selfName
  names : fr'.names = fr.names
  defines : fr'.defines = fr.defines
  foreign : ∀ n v, fr.names n = some v → Foreign q qm v
  fresh : q ∉ fr.order ∧ qm ∉ fr.order
  cell : fr.cell ∈ fr.order

theorem after_eq {fr fr' : Frame} {q qm : Cls} (h : Related fr fr' q qm) {c : Cls} (h1 : c ≠ q) (h2 : c ≠ qm)
    (m : String) : fr'.after c m = fr.after c m := by
  unfold Frame.after
  rw [h.order, h.defines, List.dropWhile_cons, if_pos (by simpa using fun hc => h1 hc.symm), List.dropWhile_cons,
    if_pos (by simpa using fun hc => h2 hc.symm)]

theorem superOf_foreign {fr fr' : Frame} {q qm : Cls} (h : Related fr fr' q qm) {vs : List Val} {v : Val}
    (hv : fr.superOf vs = some v) : Foreign q qm v := by
  have hp : ∀ c ∈ fr.order, Foreign q qm (.proxy c) := fun c hc =>
    ⟨by simp, by simp, by simp, fun he => h.fresh.1 (by cases he; exact hc),
      fun he => h.fresh.2 (by cases he; exact hc)⟩
  unfold Frame.superOf at hv
  split at hv
  · cases hv; exact hp _ h.cell
  · split at hv
    · rename_i hc
      cases hv; exact hp _ hc
    · cases hv
  · cases hv

theorem superOf_eq {fr fr' : Frame} {q qm : Cls} (h : Related fr fr' q qm) {vs : List Val} (hne : vs ≠ [])
    (hf : ∀ v ∈ vs, Foreign q qm v) : fr'.superOf vs = fr.superOf vs := by
  unfold Frame.superOf
  split
  · exact absurd rfl hne
  · rename_i c
    have hc := hf (.cls c) (by simp)
    have : c ∈ fr'.order ↔ c ∈ fr.order := by
      rw [h.order]
      simp only [List.mem_cons]
      constructor
      · rintro (h1 | h1 | h1)
        · exact absurd (by rw [h1]) hc.2.1
        · exact absurd (by rw [h1]) hc.2.2.1
        · exact h1
      · intro h1; exact Or.inr (Or.inr h1)
    simp only [this]
  · rfl

mutual
theorem eval_foreign {fr fr' : Frame} {q qm : Cls} (h : Related fr fr' q qm) :
    ∀ (e : Expr), OnlyCalled e → ∀ v, eval fr e = some v → Foreign q qm v
  | .name n, ho, v, hv => by
    simp only [OnlyCalled] at ho
    simp only [eval, if_neg ho] at hv
    split at hv
    · cases hv
      exact ⟨by simp, by simp, by simp, by simp, by simp⟩
    · exact h.foreign n v hv
  | .attr e m, _, v, hv => by
    simp only [eval] at hv
    split at hv
    · cases hv
    · rw [Option.map_eq_some_iff] at hv
      obtain ⟨c, -, rfl⟩ := hv
      exact ⟨by simp, by simp, by simp, by simp, by simp⟩
    · cases hv
      exact ⟨by simp, by simp, by simp, by simp, by simp⟩
  | .call f args, ho, v, hv => by
    simp only [eval] at hv
    split at hv
    · exact superOf_foreign h hv
    · cases hv
      exact ⟨by simp, by simp, by simp, by simp, by simp⟩
    · cases hv

theorem evalArgs_foreign {fr fr' : Frame} {q qm : Cls} (h : Related fr fr' q qm) :
    ∀ (a : Args), OnlyCalledArgs a → ∀ vs, evalArgs fr a = some vs → ∀ v ∈ vs, Foreign q qm v
  | .nil, _, vs, hv => by
    simp only [evalArgs] at hv
    cases hv
    intro v hv
    cases hv
  | .cons e r, ho, vs, hv => by
    simp only [OnlyCalledArgs] at ho
    simp only [evalArgs] at hv
    split at hv
    · rename_i v vs' h1 h2
      cases hv
      intro w hw
      rcases List.mem_cons.1 hw with rfl | hw
      · exact eval_foreign h e ho.1 _ h1
      · exact evalArgs_foreign h r ho.2 _ h2 w hw
    · cases hv

end

/-- The value of a call of a method found by `super()`. -/
theorem eval_super_method {fr : Frame} (args : Args) (m : String) (s : Expr) (c : Cls)
    (hs : eval fr s = some (.proxy c)) :
    eval fr (.call (.attr s m) args) =
      match fr.after c m, evalArgs fr args with
      | some d, some vs => some (.result (vs.foldl .app (.method d m)))
      | _, _ => none := by
  simp only [eval, hs]
  cases fr.after c m with
  | none => rfl
  | some d =>
    simp only [Option.map_some]
    cases evalArgs fr args <;> rfl

theorem eval_call_congr {fr fr' : Frame} {f f' : Expr} {args args' : Args}
    (hf : eval fr' f' = eval fr f) (ha : evalArgs fr' args' = evalArgs fr args)
    (hn : eval fr f ≠ some .superType) :
    eval fr' (.call f' args') = eval fr (.call f args) := by
  simp only [eval, hf, ha]
  cases h1 : eval fr f with
  | none => rfl
  | some v =>
    cases v with
    | superType => exact absurd h1 hn
    | _ => cases evalArgs fr args <;> rfl

mutual
theorem eval_anchor {fr fr' : Frame} {q qm : Cls} (h : Related fr fr' q qm) {owner : String}
    (ho1 : owner ≠ "super") (ho2 : owner ≠ fr.selfName) (hself : fr.selfName ≠ "super")
    (hown : fr.names owner = some (.cls fr.cell)) :
    ∀ e, OnlyCalled e → eval fr' (anchor owner fr.selfName e) = eval fr e
  | .name n, _ => by simp only [anchor, eval, h.selfName, h.names]
  | .attr e m, ho => by
    simp only [OnlyCalled] at ho
    simp only [anchor, eval]
    rw [eval_anchor h ho1 ho2 hself hown e ho]
    cases hv : eval fr e with
    | none => rfl
    | some v =>
      have hfv := eval_foreign h e ho v hv
      cases v with
      | proxy c =>
        simp only
        rw [after_eq h (fun hc => hfv.2.2.2.1 (by rw [hc])) (fun hc => hfv.2.2.2.2 (by rw [hc]))]
      | _ => rfl
  | .call f args, ho => by
    simp only [OnlyCalled] at ho
    have iha := evalArgs_anchor h ho1 ho2 hself hown args ho.1
    have hcq : fr.cell ≠ q := fun hc => h.fresh.1 (hc ▸ h.cell)
    have hcm : fr.cell ≠ qm := fun hc => h.fresh.2 (hc ▸ h.cell)
    rw [anchor]
    rcases ho.2 with ⟨m, rfl⟩ | ⟨rfl, hargs⟩ | hof
    · have e1 : anchor owner fr.selfName (.attr bare m) = .attr bare m := by simp [anchor, bare, anchorArgs, leaveCall]
      have e2 : leaveCall owner fr.selfName (.attr bare m) (anchorArgs owner fr.selfName args) =
          .call (.attr (anchoredSuper owner fr.selfName) m) (anchorArgs owner fr.selfName args) := rfl
      rw [e1, e2]
      have hp : eval fr' (anchoredSuper owner fr.selfName) = some (.proxy fr.cell) := by
        simp only [anchoredSuper, eval, evalArgs, Frame.superOf, if_neg ho1, h.selfName, if_neg ho2, h.names, hown, if_neg hself,
          if_true]
        rw [if_pos]
        rw [h.order]
        exact List.mem_cons_of_mem _ (List.mem_cons_of_mem _ h.cell)
      have hb : eval fr bare = some (.proxy fr.cell) := by simp only [bare, eval, evalArgs, Frame.superOf, if_true]
      rw [eval_super_method _ m _ _ hp, eval_super_method _ m _ _ hb, iha, after_eq h hcq hcm]
    · have e1 : anchor owner fr.selfName (.name "super") = .name "super" := by simp only [anchor]
      have e2 : leaveCall owner fr.selfName (.name "super") (anchorArgs owner fr.selfName args) =
          .call (.name "super") (anchorArgs owner fr.selfName args) := rfl
      rw [e1, e2]
      simp only [eval, if_true, iha]
      cases hv : evalArgs fr args with
      | none => rfl
      | some vs =>
        have hne : vs ≠ [] := by
          intro hvs
          subst hvs
          cases args with
          | nil => exact hargs rfl
          | cons e r =>
            simp only [evalArgs] at hv
            split at hv <;> cases hv
        have hfor := evalArgs_foreign h args ho.1 vs hv
        exact superOf_eq h hne hfor
    · have hnb : ∀ m, anchor owner fr.selfName f ≠ .attr bare m := by
        intro m hm
        have := anchor_attr_bare hm
        subst this
        simp only [OnlyCalled] at hof
        exact not_onlyCalled_bare hof
      have e2 : leaveCall owner fr.selfName (anchor owner fr.selfName f) (anchorArgs owner fr.selfName args) =
          .call (anchor owner fr.selfName f) (anchorArgs owner fr.selfName args) := by
        rcases leaveCall_cases owner fr.selfName (anchor owner fr.selfName f) (anchorArgs owner fr.selfName args) with
          ⟨m, h1, -⟩ | ⟨-, h2⟩
        · exact absurd h1 (hnb m)
        · exact h2
      rw [e2]
      refine eval_call_congr (eval_anchor h ho1 ho2 hself hown f hof) iha ?_
      intro hs
      exact (eval_foreign h f hof _ hs).1 rfl

theorem evalArgs_anchor {fr fr' : Frame} {q qm : Cls} (h : Related fr fr' q qm) {owner : String}
    (ho1 : owner ≠ "super") (ho2 : owner ≠ fr.selfName) (hself : fr.selfName ≠ "super")
    (hown : fr.names owner = some (.cls fr.cell)) :
    ∀ a, OnlyCalledArgs a → evalArgs fr' (anchorArgs owner fr.selfName a) = evalArgs fr a
  | .nil, _ => by simp only [anchorArgs, evalArgs]
  | .cons e r, ho => by
    simp only [OnlyCalledArgs] at ho
    simp only [anchorArgs, evalArgs]
    rw [eval_anchor h ho1 ho2 hself hown e ho.1, evalArgs_anchor h ho1 ho2 hself hown r ho.2]
end

/-! ## Properties -/

/-- **C107.** The order of the classes of the generated class is the class itself,
`QuantizedModule`, and then the order of the class converted, unchanged: whenever the
classes above `QuantizedModule` are among those of the class converted, in the same
order. -/
theorem quantized_class_order (q qm : Cls) (above original : List Cls) (hs : above.Sublist original)
    (hn : original.Nodup) (hne : original ≠ []) (hq : qm ∉ original) :
    quantizedMro q (qm :: above) original = some (q :: qm :: original) := by
  cases original with
  | nil => exact absurd rfl hne
  | cons x r =>
    have hqx : qm ≠ x := fun h => hq (h ▸ List.mem_cons_self)
    have hqr : qm ∉ r := fun h => hq (List.mem_cons_of_mem _ h)
    have hqa : qm ∉ above := fun h => hq (hs.subset h)
    have hc : ∀ {c : Cls} {l : List Cls}, c ∉ l → l.contains c = false := by
      intro c l hc
      cases hb : l.contains c with
      | false => rfl
      | true => exact absurd (List.contains_iff_mem.1 hb) hc
    have hxr : x ∉ r := (List.nodup_cons.1 hn).1
    -- one step takes `qm`; the list of bases then has the converted class only
    have step : ∀ n, (x :: r).length ≤ n →
        merge (n + 1) [qm :: above, x :: r, [qm, x]] = some (qm :: x :: r) := by
      intro n hlen
      unfold merge
      rw [if_neg (by simp)]
      have hcand : candidate [qm :: above, x :: r, [qm, x]] [qm :: above, x :: r, [qm, x]] = some qm := by
        have h1 : List.contains [x] qm = false := hc (by simpa using hqx)
        simp only [candidate, List.any_cons, List.tail_cons, hc hqa, hc hqr, h1, List.any_nil, Bool.or_false,
          Bool.false_eq_true, if_false]
      rw [hcand]
      have hd1 : dropHead qm (qm :: above) = above := by simp [dropHead]
      have hd2 : dropHead qm (x :: r) = x :: r := by
        unfold dropHead
        rw [if_neg]
        intro h
        exact hqx (Option.some.inj h).symm
      have hd3 : dropHead qm [qm, x] = [x] := by simp [dropHead]
      simp only [List.map_cons, List.map_nil, hd1, hd2, hd3]
      -- the list of bases follows the order of the class converted
      have two : merge n [above, x :: r, [x]] = some (x :: r) := by
        cases n with
        | zero => simp at hlen
        | succ n =>
          have hcx : List.contains (List.tail [x]) x = false := rfl
          have key : ∀ a', candidate [above, x :: r, [x]] [above, x :: r, [x]] = some x → dropHead x above = a' →
              a'.Sublist r → merge (n + 1) [above, x :: r, [x]] = some (x :: r) := by
            intro a' h1 h2 h3
            unfold merge
            rw [if_neg (by simp), h1]
            have e1 : dropHead x (x :: r) = r := by simp [dropHead]
            have e2 : dropHead x [x] = [] := by simp [dropHead]
            simp only [List.map_cons, List.map_nil, h2, e1, e2]
            rw [merge_sublist n r a' [[]] (by simp only [List.length_cons] at hlen; omega) h3 (List.nodup_cons.1 hn).2
              (by intro y hy; simpa using hy)]
            rfl
          cases above with
          | nil =>
            refine key [] ?_ rfl (List.nil_sublist r)
            simp only [candidate, List.any_cons, List.tail_nil, List.tail_cons, hc hxr, List.any_nil]
            rfl
          | cons y a =>
            by_cases hy : y = x
            · subst hy
              have hs' : a.Sublist r := by
                cases hs with
                | cons _ hs => exact absurd (hs.subset (List.mem_cons_self)) hxr
                | cons_cons _ hs => exact hs
              have hya : y ∉ a := fun hm => hxr (hs'.subset hm)
              refine key a ?_ (by simp [dropHead]) hs'
              simp only [candidate, List.any_cons, List.tail_cons, hc hxr, hc hya, List.any_nil]
              rfl
            · have hs' : (y :: a).Sublist r := by
                cases hs with
                | cons _ hs => exact hs
                | cons_cons _ hs => exact absurd rfl hy
              have hyr : y ∈ r := hs'.subset List.mem_cons_self
              have hxa : x ∉ a := fun hm => hxr (hs'.subset (List.mem_cons_of_mem _ hm))
              refine key (y :: a) ?_ ?_ hs'
              · have h1 : r.contains y = true := List.contains_iff_mem.2 hyr
                simp only [candidate, List.any_cons, List.tail_cons, h1, hc hxr, hc hxa, List.any_nil,
                  Bool.true_or, Bool.or_true, if_true]
                rfl
              · unfold dropHead
                rw [if_neg]
                intro hh
                exact hy (Option.some.inj hh)
      rw [two]
      rfl
    have hlen : (List.map List.length [qm :: above, x :: r, [qm, x]]).sum =
        (above.length + (x :: r).length + 2) + 1 := by
      simp only [List.map_cons, List.map_nil, List.sum_cons, List.sum_nil, List.length_cons, List.length_nil]
      omega
    unfold quantizedMro mro
    simp only [List.filterMap_cons, List.head?_cons, List.filterMap_nil, List.cons_append, List.nil_append]
    rw [hlen, step _ (by omega)]
    rfl

/-- **C107 (partial).** A converted method calls the methods that the original calls:
let a method be defined in the class `fr.cell`, of the name `owner`, among the classes
of an instance, and let it use `super()` for calls of methods only.  Then its
expressions have the same values after conversion, when the instance is of the
generated class: every `super().m(…)` calls the method of the same class as before,
with the same arguments.  Missing: other uses of `super()`, class methods, and
classes that the generated module does not know by their name (see the deviations). -/
theorem super_calls_keep_their_methods_partial (fr : Frame) (q qm : Cls) (above : List Cls) (quantizedOrder : List Cls)
    (parts : List String) (owner : String) (e : Expr)
    (hs : above.Sublist fr.order) (hn : fr.order.Nodup) (hq : q ∉ fr.order ∧ qm ∉ fr.order)
    (hmro : quantizedMro q (qm :: above) fr.order = some quantizedOrder)
    (hcell : fr.cell ∈ fr.order) (hparts : parts.dropLast.getLast? = some owner)
    (hnames : owner ≠ "super" ∧ owner ≠ fr.selfName ∧ fr.selfName ≠ "super")
    (hown : fr.names owner = some (.cls fr.cell))
    (hforeign : ∀ n v, fr.names n = some v → Foreign q qm v)
    (he : OnlyCalled e) :
    eval { fr with cell := q, order := quantizedOrder } (rewriteSuper .method (some fr.selfName) parts e) =
      eval fr e := by
  have hne : fr.order ≠ [] := fun h => by rw [h] at hcell; cases hcell
  rw [quantized_class_order q qm above fr.order hs hn hne hq.2] at hmro
  have horder := (Option.some.inj hmro).symm
  have ho : ownerClassName parts = some owner := by
    unfold ownerClassName
    rw [if_neg, hparts]
    intro hlen
    match parts, hlen, hparts with
    | [], _, h => cases h
    | [a], _, h => cases h
    | a :: b :: r, hlen, _ => simp only [List.length_cons] at hlen; omega
  have hr : rewriteSuper .method (some fr.selfName) parts e = anchor owner fr.selfName e := by
    simp only [rewriteSuper, ho]
  rw [hr]
  exact eval_anchor (fr' := { fr with cell := q, order := quantizedOrder }) (q := q) (qm := qm)
    ⟨horder, rfl, rfl, rfl, hforeign, hq, hcell⟩ hnames.1 hnames.2.1 hnames.2.2 hown e he

/-- **C107.** The source of a method is taken from the class that defines it: the
first class of the order that has a member of the name, if that member is the
function. -/
theorem source_of_definer (dict : Cls → List (String × Fn)) (type : Cls) (name : String) (f : Fn) (c : Cls) :
    ∀ (order : List Cls), lookup dict order name = some (c, f) →
      resolveOwner dict order type name f = (c, name) := by
  intro order h
  have hf : ∀ order : List Cls, lookup dict order name = some (c, f) →
      (order.find? fun c => (dict c).lookup name == some f) = some c := by
    intro order
    induction order with
    | nil => intro h; cases h
    | cons d r ih =>
      intro h
      simp only [lookup] at h
      cases hd : (dict d).lookup name with
      | some g =>
        simp only [hd] at h
        cases h
        rw [List.find?_cons_of_pos]
        rw [hd]
        exact beq_self_eq_true _
      | none =>
        simp only [hd] at h
        rw [List.find?_cons_of_neg]
        · exact ih h
        · rw [hd]
          intro hc
          cases hc
  unfold resolveOwner
  rw [hf order h]

theorem mem_of_lookup {l : List (String × Fn)} {n : String} {f : Fn} (h : l.lookup n = some f) : (n, f) ∈ l := by
  induction l with
  | nil => cases h
  | cons p l ih =>
    obtain ⟨m, g⟩ := p
    rw [List.lookup_cons] at h
    cases hb : n == m with
    | true =>
      simp only [hb] at h
      cases h
      rw [eq_of_beq hb]
      exact List.mem_cons_self
    | false =>
      simp only [hb] at h
      exact List.mem_cons_of_mem _ (ih h)

/-- **C107.** If any class of the order has the function as a member, the class and
name that the source is taken from are a class of the order and a member of it that is
the function; under the name asked for, if any class has it under that name. -/
theorem source_has_function (dict : Cls → List (String × Fn)) (order : List Cls) (type : Cls) (name : String) (f : Fn)
    (h : ∃ c ∈ order, ∃ n, (n, f) ∈ dict c) :
    (resolveOwner dict order type name f).1 ∈ order ∧
      ((resolveOwner dict order type name f).2, f) ∈ dict (resolveOwner dict order type name f).1 ∧
      ((∃ c ∈ order, (dict c).lookup name = some f) → (resolveOwner dict order type name f).2 = name) := by
  unfold resolveOwner
  cases h1 : order.find? fun c => (dict c).lookup name == some f with
  | some c =>
    have hp := List.find?_some h1
    exact ⟨List.mem_of_find?_eq_some h1, mem_of_lookup (eq_of_beq hp), fun _ => rfl⟩
  | none =>
    simp only
    have hno : ∀ c ∈ order, (dict c).lookup name ≠ some f := by
      intro c hc he
      have := List.find?_eq_none.1 h1 c hc
      exact this (by rw [he]; exact beq_self_eq_true _)
    cases h2 : order.findSome? fun c => ((dict c).find? fun p => p.2 == f).map fun p => (c, p.1) with
    | none =>
      exfalso
      obtain ⟨c, hc, n, hn⟩ := h
      have := List.findSome?_eq_none_iff.1 h2 c hc
      rw [Option.map_eq_none_iff, List.find?_eq_none] at this
      exact this (n, f) hn (beq_self_eq_true f)
    | some r =>
      simp only
      obtain ⟨c, hc, hr⟩ := List.exists_of_findSome?_eq_some h2
      rw [Option.map_eq_some_iff] at hr
      obtain ⟨p, hp, rfl⟩ := hr
      have hpf : p.2 = f := eq_of_beq (List.find?_some (p := fun p : String × Fn => p.2 == f) hp)
      refine ⟨hc, ?_, ?_⟩
      · have hm := List.mem_of_find?_eq_some hp
        rw [← hpf]
        exact hm
      · rintro ⟨d, hd, he⟩
        exact absurd he (hno d hd)

/-! ## Deviations -/

/-- **C107, deviation.** `super().m` that is not called at once — a property, or a
method taken for later — is not anchored: if the class converted defines `m`, the
converted method finds that, and not what the original finds after the class. -/
theorem attribute_not_anchored (fr : Frame) (q qm : Cls) (x : Cls) (r : List Cls) (owner m : String)
    (ho : fr.order = x :: r) (hc : fr.cell = x) (hx : x ∉ r) (hd : fr.defines x m = true)
    (hqm : fr.defines qm m = false) :
    eval { fr with cell := q, order := q :: qm :: fr.order } (rewriteSuper .method (some fr.selfName) ["a", owner, "f"]
        (.attr bare m)) = some (.method x m) ∧
      eval fr (.attr bare m) ≠ some (.method x m) := by
  constructor
  · have : rewriteSuper .method (some fr.selfName) ["a", owner, "f"] (.attr bare m) = .attr bare m := by
      simp [rewriteSuper, ownerClassName, anchor, bare, anchorArgs, leaveCall]
    rw [this]
    simp [eval, bare, evalArgs, Frame.superOf, Frame.after, ho, hqm, hd]
  · intro h
    simp only [eval, bare, evalArgs, Frame.superOf, if_true, Option.map_eq_some_iff] at h
    obtain ⟨c, h1, h2⟩ := h
    cases h2
    simp only [Frame.after, ho, hc] at h1
    have : (List.dropWhile (fun y => decide (y ≠ x)) (x :: r)).tail = r := by
      rw [List.dropWhile_cons, if_neg (by simp), List.tail_cons]
    rw [this] at h1
    exact hx (List.mem_of_find?_eq_some h1)

/-- **C107, deviation.** `super()` in class methods is not anchored: a converted class
method that calls itself on `super()` calls the original of its own class. -/
theorem class_method_not_anchored (fr : Frame) (q qm : Cls) (x : Cls) (r : List Cls) (owner m : String) (args : Args)
    (vs : List Val) (ho : fr.order = x :: r) (hd : fr.defines x m = true) (hqm : fr.defines qm m = false)
    (ha : evalArgs { fr with cell := q, order := q :: qm :: fr.order } args = some vs) :
    eval { fr with cell := q, order := q :: qm :: fr.order }
        (rewriteSuper .classMethod (some fr.selfName) ["a", owner, "f"] (.call (.attr bare m) args)) =
      some (.result (vs.foldl .app (.method x m))) := by
  have hr : rewriteSuper .classMethod (some fr.selfName) ["a", owner, "f"] (.call (.attr bare m) args) =
      .call (.attr bare m) args := rfl
  have hb : eval { fr with cell := q, order := q :: qm :: fr.order } bare = some (.proxy q) := by
    simp only [bare, eval, evalArgs, Frame.superOf, if_true]
  rw [hr, eval_super_method args m bare q hb, ha]
  simp [Frame.after, ho, hqm, hd]

/-- **C107, deviation.** If the generated module knows another class by the name of
the class of the method (two classes of one name), or none (a class in a class), a
converted call on `super()` fails. -/
theorem wrong_class_of_name (fr : Frame) (q : Cls) (order : List Cls) (outer owner m : String) (args : Args)
    (names : String → Option Val) (hn : owner ≠ "super" ∧ owner ≠ fr.selfName)
    (hown : names owner = none ∨ ∃ c, c ∉ order ∧ names owner = some (.cls c)) :
    eval { fr with cell := q, order := order, names := names }
      (rewriteSuper .method (some fr.selfName) [outer, owner, "f"] (.call (.attr bare m) args)) = none := by
  have hr : rewriteSuper .method (some fr.selfName) [outer, owner, "f"] (.call (.attr bare m) args) =
      .call (.attr (anchoredSuper owner fr.selfName) m) (anchorArgs owner fr.selfName args) := by
    simp [rewriteSuper, ownerClassName, anchor, bare, anchorArgs, leaveCall]
  rw [hr]
  have ha : eval { fr with cell := q, order := order, names := names } (anchoredSuper owner fr.selfName) = none := by
    simp only [anchoredSuper, eval, evalArgs, if_neg hn.1, if_neg hn.2, if_true]
    rcases hown with h | ⟨c, hc, h⟩
    · simp only [h]
    · by_cases hs : fr.selfName = "super"
      · simp [h, hs, Frame.superOf]
      · simp only [h, if_neg hs, Frame.superOf, if_neg hc]
  simp only [eval, ha]

/-! ## Concrete cases -/

/-- Class 1 derives from 2, 2 from `Module`, 3, and that from `object`, 4;
`QuantizedModule` is 10 and the generated class 20.  Classes 1, 2 and 3 define
`forward`. -/
def frame : Frame where
  cell := 1
  order := [1, 2, 3, 4]
  selfName := "self"
  names := fun n => if n = "Net" then some (.cls 1) else if n = "x" then some (.other 0) else none
  defines := fun c m => m == "forward" && decide (c ≤ 3)

/-- `super().forward(x)`. -/
def callForward : Expr := .call (.attr bare "forward") (.cons (.name "x") .nil)

example : quantizedMro 20 [10, 3, 4] [1, 2, 3, 4] = some [20, 10, 1, 2, 3, 4] := by decide +kernel

/-- A mixin between: order is kept as well. -/
example : quantizedMro 20 [10, 3, 4] [1, 2, 3, 7, 4] = some [20, 10, 1, 2, 3, 7, 4] := by decide +kernel

theorem frame_foreign : ∀ n v, frame.names n = some v → Foreign 20 10 v := by
  intro n v h
  simp only [frame] at h
  split at h
  · cases h
    exact ⟨by simp, by simp, by simp, by simp, by simp⟩
  · split at h
    · cases h
      exact ⟨by simp, by simp, by simp, by simp, by simp⟩
    · cases h

theorem callForward_onlyCalled : OnlyCalled callForward := by
  simp only [callForward, OnlyCalled, OnlyCalledArgs]
  exact ⟨⟨by decide, trivial⟩, Or.inl ⟨_, rfl⟩⟩

/-- A case of `super_calls_keep_their_methods_partial`: class 2 is found, before and after. -/
example : eval { frame with cell := 20, order := [20, 10, 1, 2, 3, 4] }
      (rewriteSuper .method (some "self") ["net", "Net", "forward"] callForward) =
        some (.result (.app (.method 2 "forward") (.other 0))) ∧
    eval frame callForward = some (.result (.app (.method 2 "forward") (.other 0))) := by
  have h := super_calls_keep_their_methods_partial frame 20 10 [3, 4] [20, 10, 1, 2, 3, 4] ["net", "Net", "forward"]
    "Net" callForward (by decide) (by decide) (by decide) (by decide +kernel) (by decide) rfl (by decide) rfl
    frame_foreign callForward_onlyCalled
  have h2 : eval frame callForward = some (.result (.app (.method 2 "forward") (.other 0))) := by
    simp [eval, evalArgs, callForward, bare, frame, Frame.superOf, Frame.after]
  exact ⟨h.trans h2, h2⟩

/-- Without anchoring, the converted method would call the original of class 1. -/
example : eval { frame with cell := 20, order := [20, 10, 1, 2, 3, 4] } callForward =
    some (.result (.app (.method 1 "forward") (.other 0))) := by
  simp [eval, evalArgs, callForward, bare, frame, Frame.superOf, Frame.after]

/-- A case of `attribute_not_anchored`: class 2 is found originally, class 1 by the
converted method. -/
example : eval { frame with cell := 20, order := [20, 10, 1, 2, 3, 4] }
      (rewriteSuper .method (some "self") ["a", "Net", "f"] (.attr bare "forward")) = some (.method 1 "forward") ∧
    eval frame (.attr bare "forward") = some (.method 2 "forward") :=
  ⟨(attribute_not_anchored frame 20 10 1 [2, 3, 4] "Net" "forward" rfl rfl (by decide) rfl (by decide)).1,
    by simp [eval, evalArgs, bare, frame, Frame.superOf, Frame.after]⟩

/-- A case of `source_of_definer`: class 2 defines the function that class 1
inherits. -/
example : resolveOwner (fun c => if c = 2 then [("forward", 7)] else if c = 3 then [("forward", 8)] else [])
    [1, 2, 3, 4] 1 "forward" 7 = (2, "forward") :=
  source_of_definer _ 1 "forward" 7 2 [1, 2, 3, 4] rfl

/-- A case of `source_has_function`: a function that is a member by another name. -/
example : resolveOwner (fun c => if c = 2 then [("forward", 6), ("helper", 7)] else [])
    [1, 2, 3, 4] 1 "forward" 7 = (2, "helper") := by decide +kernel

end FF.Super
