import Mathlib.Data.List.Nodup
import Mathlib.Data.List.Perm.Subperm

/-!
# Names in the generated module

The module that autoquant generates holds a class for every module type and a
function for every helper, next to the imported base classes.  This file models
how their names are chosen (`QuantizedClassNameAllocator` and phase 6 of
`_resolve_all_quantized_calls`) and how references in the converted functions
follow the new names (phase 7 with `_ResolveQuantizedCallsTransformer` and
`_RenameHelperRefsTransformer`), all in `_autoquant/autoquant.py`.
-/

namespace FF.HelperNames

/-! ## Model: choosing names -/

/-- The loop `while True: candidate = f"{preferred}_{index}" …`, with a bound on
the number of rounds (shown to suffice): `autoquant.py` 59–65 and 637–639. -/
def search (preferred : String) (used : List String) : Nat → Nat → Option String
  | 0, _ => none
  | fuel + 1, index =>
    if preferred ++ "_" ++ toString index ∈ used then search preferred used fuel (index + 1)
    else some (preferred ++ "_" ++ toString index)

/-- The preferred name if it is free, else the first free one with an index, from
the given index on. -/
def allocFrom (first : Nat) (preferred : String) (used : List String) : String :=
  if preferred ∈ used then (search preferred used (used.length + 1) first).getD preferred
  else preferred

/-- `_alloc_unique_name` (`autoquant.py` 53–65): indices start at 1. -/
def allocUnique (preferred : String) (used : List String) : String := allocFrom 1 preferred used

/-- The state of `QuantizedClassNameAllocator` (`autoquant.py` 47–51): the names
of all module types, the names asked for so far, the class names and base aliases
given so far. -/
structure Allocator where
  totals : List String
  asked : List String
  classes : List String
  aliases : List String

/-- `QuantizedClassNameAllocator.__init__`. -/
def Allocator.init (names : List String) : Allocator := ⟨names, [], [], []⟩

/-- `for_module_type` (`autoquant.py` 67–83): base alias and class name. -/
def Allocator.alloc (a : Allocator) (name : String) : (String × String) × Allocator :=
  let total := a.totals.count name
  let index := a.asked.count name
  let base := if 1 < total then "__ffaq_base_" ++ name ++ "_" ++ toString index else name
  let cls :=
    if 1 < total then "Quantized" ++ name ++ "_" ++ toString index else "Quantized" ++ name
  let base := allocUnique base a.aliases
  let cls := allocUnique cls a.classes
  ((base, cls),
    { a with asked := name :: a.asked, classes := cls :: a.classes, aliases := base :: a.aliases })

/-- The names for a sequence of module types. -/
def allocAll (a : Allocator) : List String → List (String × String)
  | [] => []
  | n :: ns => (a.alloc n).1 :: allocAll (a.alloc n).2 ns

/-- What the base of a generated class is at run time: a class type of the model
(by position) or another generated class. -/
inductive Base where
  | imported (i : Nat)
  | generated (i : Nat)
  deriving DecidableEq, Repr

/-- The generated module (`build_module`, `pybuilder/builder.py` 76–103, with the
classes from `_cls_builder_for_module`, `autoquant.py` 352–368): first the base
classes are imported under their aliases, then every class statement looks up its
alias and binds its own name.  `seen` are the names bound by class statements so
far, with the last first. -/
def bases (imports : List (String × Nat)) : List (String × Nat) → List ((String × String) × Nat) →
    List (Option Base)
  | _, [] => []
  | seen, ((base, cls), i) :: rest =>
    (match seen.lookup base with
      | some j => some (.generated j)
      | none => (imports.lookup base).map .imported) :: bases imports ((cls, i) :: seen) rest

/-- The bases of the generated classes for module types with the given names. -/
def moduleBases (names : List String) : List (Option Base) :=
  let pairs := (allocAll (.init names) names).zipIdx
  bases (pairs.map fun p => (p.1.1, p.2)) [] pairs

/-- Phase 6 (`autoquant.py` 627–645): new names of the helpers with the given
names, in order; suffixes start at 2. -/
def helperNames (used : List String) : List String → List String
  | [] => []
  | n :: ns =>
    let new := allocFrom 2 ("quantized_" ++ n) used
    new :: helperNames (new :: used) ns

/-! ## Model: following names -/

mutual

/-- Expressions of converted functions: names, literals, `e.a`, calls, calls that
are not resolved yet (`UnresolvedQuantizedCall`, with the number of the helper
and, if the helper was converted, its quantizer arguments as keyword and number
of the quantizer), quantizers. -/
inductive Expr where
  | name (x : String)
  | lit (n : Nat)
  | attr (e : Expr) (a : String)
  | call (f : Expr) (as : Args)
  | helper (h : Nat) (f : Expr) (as : Args) (qs : Option (List (String × Nat)))
  | quantizer (n : Nat)

/-- Arguments, with keywords. -/
inductive Args where
  | nil
  | cons (k : Option String) (e : Expr) (as : Args)

end

/-- Statements. -/
inductive Stmt where
  | assign (x : String) (e : Expr)
  | ret (e : Expr)

/-- A function definition. -/
structure Def where
  name : String
  params : List String
  body : List Stmt

/-- The quantizer arguments of a resolved call (`autoquant.py` 1006–1011). -/
def quantizerArgs : List (String × Nat) → Args
  | [] => .nil
  | (k, n) :: qs => .cons (some k) (.quantizer n) (quantizerArgs qs)

/-- `tuple(updated_node.args) + tuple(new_args)`. -/
def Args.append : Args → Args → Args
  | .nil, bs => bs
  | .cons k e as, bs => .cons k e (as.append bs)

mutual

/-- `_ResolveQuantizedCallsTransformer` (`autoquant.py` 982–1018); `new` are the
new names of the helpers (`func_rename_map`). -/
def resolve (new : Nat → Option String) : Expr → Expr
  | .name x => .name x
  | .lit n => .lit n
  | .attr e a => .attr (resolve new e) a
  | .call f as => .call (resolve new f) (resolveArgs new as)
  | .helper h f as none => .helper h (resolve new f) (resolveArgs new as) none
  | .helper h f as (some qs) =>
    .call (match new h with
      | some x => .name x
      | none => resolve new f) ((resolveArgs new as).append (quantizerArgs qs))
  | .quantizer n => .quantizer n

/-- See `resolve`. -/
def resolveArgs (new : Nat → Option String) : Args → Args
  | .nil => .nil
  | .cons k e as => .cons k (resolve new e) (resolveArgs new as)

end

/-- `self._name_map.get(updated_node.value)`. -/
def mapName (ρ : String → Option String) (x : String) : String := (ρ x).getD x

mutual

/-- `_RenameHelperRefsTransformer` (`autoquant.py` 941–980): every name is
replaced but those after a dot; keywords of arguments are names too.  The names
of quantizers are not modelled. -/
def rename (ρ : String → Option String) : Expr → Expr
  | .name x => .name (mapName ρ x)
  | .lit n => .lit n
  | .attr e a => .attr (rename ρ e) a
  | .call f as => .call (rename ρ f) (renameArgs ρ as)
  | .helper h f as qs => .helper h (rename ρ f) (renameArgs ρ as) qs
  | .quantizer n => .quantizer n

/-- See `rename`. -/
def renameArgs (ρ : String → Option String) : Args → Args
  | .nil => .nil
  | .cons k e as => .cons (k.map (mapName ρ)) (rename ρ e) (renameArgs ρ as)

end

/-- Both transformers on a statement. -/
def Stmt.convert (new : Nat → Option String) (ρ : String → Option String) : Stmt → Stmt
  | .assign x e => .assign (mapName ρ x) (rename ρ (resolve new e))
  | .ret e => .ret (rename ρ (resolve new e))

/-- Both transformers on a definition (`autoquant.py` 663–670); the name of the
definition and its parameters are names too. -/
def Def.convert (new : Nat → Option String) (ρ : String → Option String) (d : Def) : Def where
  name := mapName ρ d.name
  params := d.params.map (mapName ρ)
  body := d.body.map (Stmt.convert new ρ)

/-- `helper_name_map` (`autoquant.py` 651–661) from pairs of old and new names: a
name that occurs twice is dropped. -/
def nameMap (hs : List (String × String)) (x : String) : Option String :=
  match hs.filter (fun h => h.1 == x) with
  | [h] => some h.2
  | _ => none

/-! ## Specification -/

/-- Python at run time. -/
structure Python (V : Type) where
  lit : Nat → V
  attr : V → String → Option V
  call : V → List (Option String × V) → Option V
  quantizer : Nat → V

variable {V : Type}

mutual

/-- The value of an expression; `none` is an exception.  A call that is not
resolved is a call of the function that is named. -/
def eval (py : Python V) (look : String → Option V) : Expr → Option V
  | .name x => look x
  | .lit n => some (py.lit n)
  | .attr e a => (eval py look e).bind fun v => py.attr v a
  | .call f as => (eval py look f).bind fun g => (evalArgs py look as).bind fun vs => py.call g vs
  | .helper _ f as _ =>
    (eval py look f).bind fun g => (evalArgs py look as).bind fun vs => py.call g vs
  | .quantizer n => some (py.quantizer n)

/-- The values of arguments. -/
def evalArgs (py : Python V) (look : String → Option V) : Args → Option (List (Option String × V))
  | .nil => some []
  | .cons k e as =>
    (eval py look e).bind fun v => (evalArgs py look as).bind fun vs => some ((k, v) :: vs)

end

/-- The names a function assigns to. -/
def assigned : List Stmt → List String
  | [] => []
  | .assign x _ :: ss => x :: assigned ss
  | .ret _ :: ss => assigned ss

/-- Reading a name: local variables (parameters and names that are assigned
somewhere) have a value once they are assigned, other names are global. -/
def reading (isLocal : String → Bool) (env : List (String × V)) (glob : String → Option V)
    (x : String) : Option V :=
  if isLocal x then env.lookup x else glob x

/-- Running statements. -/
def exec (py : Python V) (isLocal : String → Bool) (glob : String → Option V) :
    List (String × V) → List Stmt → Option V
  | _, [] => none
  | env, .assign x e :: ss =>
    (eval py (reading isLocal env glob) e).bind fun v => exec py isLocal glob ((x, v) :: env) ss
  | env, .ret e :: _ => eval py (reading isLocal env glob) e

/-- Calling a function with values for its parameters, given by name. -/
def run (py : Python V) (glob : String → Option V) (d : Def) (args : List (String × V)) :
    Option V :=
  if args.map (·.1) = d.params then
    exec py (fun x => decide (x ∈ d.params) || decide (x ∈ assigned d.body)) glob args d.body
  else none

/-- A helper function: the name in its `def` statement, the name it has in the
generated module, the original function and the generated one. -/
structure Helper (V : Type) where
  old : String
  new : String
  original : V
  generated : V

/-- The globals of the generated module: helpers under their new names; under all
other names what the original module has. -/
def generatedGlobals (hs : List (Helper V)) (glob : String → Option V) (x : String) : Option V :=
  match hs.find? (fun h => h.new == x) with
  | some h => some h.generated
  | none => glob x

/-- A generated helper does what the original does if it gets its quantizers. -/
def Faithful (py : Python V) (hs : List (Helper V)) (quantizers : Nat → List (String × Nat)) : Prop :=
  ∀ i h, hs[i]? = some h → ∀ vs,
    py.call h.generated (vs ++ (quantizers i).map (fun q => (some q.1, py.quantizer q.2))) =
      py.call h.original vs

mutual

/-- The expression uses names carefully: no keyword and no name is the old or the
new name of a helper, but for the callee of a call of that helper, which is
called with its quantizers. -/
def Careful (py : Python V) (hs : List (Helper V)) (quantizers : Nat → List (String × Nat))
    (isLocal : String → Bool) (glob : String → Option V) : Expr → Prop
  | .name x => (∀ h ∈ hs, x ≠ h.old) ∧ ∀ h ∈ hs, x ≠ h.new
  | .lit _ => True
  | .attr e _ => Careful py hs quantizers isLocal glob e
  | .call f as => Careful py hs quantizers isLocal glob f ∧ CarefulArgs py hs quantizers isLocal glob as
  | .helper i f as qs =>
    CarefulArgs py hs quantizers isLocal glob as ∧
    match hs[i]? with
    | some h => qs = some (quantizers i) ∧ ∀ env, eval py (reading isLocal env glob) f = some h.original
    | none => (qs = none ∨ qs = some []) ∧ Careful py hs quantizers isLocal glob f
  | .quantizer _ => True

/-- See `Careful`. -/
def CarefulArgs (py : Python V) (hs : List (Helper V)) (quantizers : Nat → List (String × Nat))
    (isLocal : String → Bool) (glob : String → Option V) : Args → Prop
  | .nil => True
  | .cons k e as =>
    (∀ x, k = some x → ∀ h ∈ hs, x ≠ h.old) ∧ Careful py hs quantizers isLocal glob e ∧
    CarefulArgs py hs quantizers isLocal glob as

end

/-- The definition uses names carefully: also its own name, its parameters and
its local variables are not those of helpers. -/
structure CarefulDef (py : Python V) (hs : List (Helper V)) (quantizers : Nat → List (String × Nat))
    (glob : String → Option V) (d : Def) : Prop where
  name : ∀ h ∈ hs, d.name ≠ h.old
  params : ∀ x ∈ d.params, (∀ h ∈ hs, x ≠ h.old) ∧ ∀ h ∈ hs, x ≠ h.new
  locals : ∀ x ∈ assigned d.body, (∀ h ∈ hs, x ≠ h.old) ∧ ∀ h ∈ hs, x ≠ h.new
  body : ∀ s ∈ d.body, match s with
    | .assign _ e | .ret e => Careful py hs quantizers
      (fun x => decide (x ∈ d.params) || decide (x ∈ assigned d.body)) glob e

/-! ## Lemmas -/

theorem repr_inj {m n : Nat} (h : toString m = toString n) : m = n := by
  have h1 : (Nat.toDigits 10 m) = Nat.toDigits 10 n := by
    have := congrArg String.toList h
    simpa [Nat.repr] using this
  rw [← Nat.ofDigitChars_ten_toDigits (n := m), ← Nat.ofDigitChars_ten_toDigits (n := n), h1]

theorem append_inj_right {a b c : String} (h : a ++ b = a ++ c) : b = c := by
  have := congrArg String.toList h
  simp only [String.toList_append, List.append_cancel_left_eq] at this
  exact String.toList_inj.1 this

theorem cand_inj {p : String} {m n : Nat} (h : p ++ "_" ++ toString m = p ++ "_" ++ toString n) :
    m = n := repr_inj (append_inj_right h)

theorem search_none {p : String} {used : List String} :
    ∀ {fuel i}, search p used fuel i = none → ∀ j, i ≤ j → j < i + fuel → p ++ "_" ++ toString j ∈ used
  | 0, _, _, j, h1, h2 => by omega
  | fuel + 1, i, h, j, h1, h2 => by
    simp only [search] at h
    by_cases hm : p ++ "_" ++ toString i ∈ used
    · rw [if_pos hm] at h
      by_cases hj : j = i
      · subst hj; exact hm
      · exact search_none h j (by omega) (by omega)
    · rw [if_neg hm] at h; cases h

theorem search_some {p : String} {used : List String} :
    ∀ {fuel i r}, search p used fuel i = some r → r ∉ used ∧ ∃ j, i ≤ j ∧ r = p ++ "_" ++ toString j
  | 0, _, _, h => by cases h
  | fuel + 1, i, r, h => by
    simp only [search] at h
    by_cases hm : p ++ "_" ++ toString i ∈ used
    · rw [if_pos hm] at h
      obtain ⟨h1, j, h2, h3⟩ := search_some h
      exact ⟨h1, j, by omega, h3⟩
    · rw [if_neg hm] at h
      cases h
      exact ⟨hm, i, Nat.le_refl _, rfl⟩

theorem search_ends (p : String) (used : List String) (i : Nat) :
    ∃ r, search p used (used.length + 1) i = some r := by
  cases h : search p used (used.length + 1) i with
  | some r => exact ⟨r, rfl⟩
  | none =>
    exfalso
    have hall := search_none h
    have hnd : ((List.range (used.length + 1)).map fun k => p ++ "_" ++ toString (i + k)).Nodup := by
      refine List.Nodup.map ?_ List.nodup_range
      intro a b hab
      have := cand_inj hab
      omega
    have hsub : ((List.range (used.length + 1)).map fun k => p ++ "_" ++ toString (i + k)) ⊆ used := by
      intro x hx
      obtain ⟨k, hk, rfl⟩ := List.mem_map.1 hx
      have := List.mem_range.1 hk
      exact hall _ (by omega) (by omega)
    have := (hnd.subperm hsub).length_le
    simp at this
    omega

theorem allocFrom_spec (first : Nat) (p : String) (used : List String) :
    allocFrom first p used ∉ used ∧ ((p ∉ used ∧ allocFrom first p used = p) ∨
      (p ∈ used ∧ ∃ j, first ≤ j ∧ allocFrom first p used = p ++ "_" ++ toString j)) := by
  unfold allocFrom
  by_cases hp : p ∈ used
  · rw [if_pos hp]
    obtain ⟨r, hr⟩ := search_ends p used first
    obtain ⟨h1, j, h2, h3⟩ := search_some hr
    rw [hr]
    exact ⟨h1, .inr ⟨hp, j, h2, h3⟩⟩
  · rw [if_neg hp]
    exact ⟨hp, .inl ⟨hp, rfl⟩⟩

theorem allocFrom_free {first : Nat} {p : String} {used : List String} (h : p ∉ used) :
    allocFrom first p used = p := by
  unfold allocFrom; rw [if_neg h]

theorem length_allocAll : ∀ (ns : List String) (a : Allocator), (allocAll a ns).length = ns.length
  | [], _ => rfl
  | _ :: ns, a => by simp only [allocAll, List.length_cons, length_allocAll ns]

theorem allocAll_fresh : ∀ (ns : List String) (a : Allocator),
    ((allocAll a ns).map (·.2)).Nodup ∧ (∀ p ∈ allocAll a ns, p.2 ∉ a.classes) ∧
    ((allocAll a ns).map (·.1)).Nodup ∧ ∀ p ∈ allocAll a ns, p.1 ∉ a.aliases
  | [], _ => by simp [allocAll]
  | n :: ns, a => by
    obtain ⟨h1, h2, h3, h4⟩ := allocAll_fresh ns (a.alloc n).2
    have hc : (a.alloc n).1.2 ∉ a.classes := (allocFrom_spec _ _ _).1
    have hb : (a.alloc n).1.1 ∉ a.aliases := (allocFrom_spec _ _ _).1
    have ec : (a.alloc n).2.classes = (a.alloc n).1.2 :: a.classes := rfl
    have eb : (a.alloc n).2.aliases = (a.alloc n).1.1 :: a.aliases := rfl
    rw [ec] at h2
    rw [eb] at h4
    simp only [allocAll, List.map_cons, List.nodup_cons, List.mem_map, List.mem_cons]
    refine ⟨⟨?_, h1⟩, ?_, ⟨?_, h3⟩, ?_⟩
    · rintro ⟨p, hp, he⟩
      exact h2 p hp (by rw [he]; exact List.mem_cons_self)
    · rintro p (rfl | hp)
      · exact hc
      · intro h; exact h2 p hp (List.mem_cons_of_mem _ h)
    · rintro ⟨p, hp, he⟩
      exact h4 p hp (by rw [he]; exact List.mem_cons_self)
    · rintro p (rfl | hp)
      · exact hb
      · intro h; exact h4 p hp (List.mem_cons_of_mem _ h)

/-- The form of a base alias and a class name. -/
theorem alloc_form (a : Allocator) (n : String) :
    (∃ t : String, (a.alloc n).1.1 = "__ffaq_base_" ++ t ∨ (a.alloc n).1.1 = n ∨
      (a.alloc n).1.1 = n ++ "_" ++ t) ∧
    ∃ t : String, (a.alloc n).1.2 = "Quantized" ++ t := by
  constructor
  · rcases Nat.lt_or_ge 1 (a.totals.count n) with h | h
    · have e : (a.alloc n).1.1 = allocFrom 1 ("__ffaq_base_" ++ n ++ "_" ++ toString (a.asked.count n)) a.aliases := by
        simp only [Allocator.alloc, if_pos h, allocUnique]
      rw [e]
      rcases (allocFrom_spec 1 ("__ffaq_base_" ++ n ++ "_" ++ toString (a.asked.count n)) a.aliases).2 with
        ⟨_, h⟩ | ⟨_, j, _, h⟩
      · exact ⟨n ++ "_" ++ toString (a.asked.count n), .inl (by rw [h]; simp only [String.append_assoc])⟩
      · exact ⟨n ++ "_" ++ toString (a.asked.count n) ++ "_" ++ toString j,
          .inl (by rw [h]; simp only [String.append_assoc])⟩
    · have e : (a.alloc n).1.1 = allocFrom 1 n a.aliases := by
        simp only [Allocator.alloc, if_neg (Nat.not_lt.2 h), allocUnique]
      rw [e]
      rcases (allocFrom_spec 1 n a.aliases).2 with ⟨_, h⟩ | ⟨_, j, _, h⟩
      · exact ⟨"", .inr (.inl h)⟩
      · exact ⟨toString j, .inr (.inr h)⟩
  · have e : ∃ t, (a.alloc n).1.2 = allocFrom 1 ("Quantized" ++ t) a.classes := by
      by_cases h : 1 < a.totals.count n
      · exact ⟨n ++ "_" ++ toString (a.asked.count n), by
          simp only [Allocator.alloc, if_pos h, allocUnique, String.append_assoc]⟩
      · exact ⟨n, by simp only [Allocator.alloc, if_neg h, allocUnique]⟩
    obtain ⟨t, e⟩ := e
    rw [e]
    rcases (allocFrom_spec 1 ("Quantized" ++ t) a.classes).2 with ⟨_, h⟩ | ⟨_, j, _, h⟩
    · exact ⟨t, h⟩
    · exact ⟨t ++ "_" ++ toString j, by rw [h]; simp only [String.append_assoc]⟩

/-- A base alias does not start like a class name unless the type name does. -/
theorem alias_not_quantized {a : Allocator} {n : String}
    (hn : ¬ "Quantized".toList <+: n.toList) : ¬ "Quantized".toList <+: (a.alloc n).1.1.toList := by
  obtain ⟨⟨t, h⟩, _⟩ := alloc_form a n
  rcases h with h | h | h
  · rw [h, String.toList_append]
    intro hp
    have h2 : "__ffaq_base_".toList <+: "__ffaq_base_".toList ++ t.toList := List.prefix_append _ _
    rcases List.prefix_or_prefix_of_prefix hp h2 with h3 | h3 <;> revert h3 <;> decide
  · rw [h]; exact hn
  · rw [h, String.toList_append, String.toList_append, List.append_assoc]
    intro hp
    rcases List.prefix_or_prefix_of_prefix hp (List.prefix_append n.toList ("_".toList ++ t.toList)) with h3 | h3
    · exact hn h3
    · obtain ⟨u, hu⟩ := h3
      rw [← hu, List.prefix_append_right_inj] at hp
      cases u with
      | nil =>
        rw [List.append_nil] at hu
        exact hn (by rw [hu]; exact List.prefix_refl _)
      | cons c u =>
        have hc : c = '_' := by
          have h4 : "_".toList ++ t.toList = '_' :: t.toList := rfl
          rw [h4, List.cons_prefix_cons] at hp
          exact hp.1
        have : '_' ∈ "Quantized".toList := by rw [← hu, hc]; simp
        revert this; decide

theorem alias_ne_class {names : List String} (hq : ∀ n ∈ names, ¬ "Quantized".toList <+: n.toList) :
    ∀ (a : Allocator), ∀ p ∈ allocAll a names, ¬ "Quantized".toList <+: p.1.toList ∧
      "Quantized".toList <+: p.2.toList := by
  induction names with
  | nil => intro a p hp; cases hp
  | cons n ns ih =>
    intro a p hp
    simp only [allocAll, List.mem_cons] at hp
    rcases hp with rfl | hp
    · refine ⟨alias_not_quantized (hq n List.mem_cons_self), ?_⟩
      obtain ⟨_, t, h⟩ := alloc_form a n
      rw [h, String.toList_append]
      exact List.prefix_append _ _
    · exact ih (fun m hm => hq m (List.mem_cons_of_mem _ hm)) _ p hp

theorem lookup_none {α : Type} {l : List (String × α)} {x : String} (h : ∀ p ∈ l, p.1 ≠ x) :
    l.lookup x = none := by
  induction l with
  | nil => rfl
  | cons p l ih =>
    have : (x == p.1) = false := by
      rw [beq_eq_false_iff_ne]; exact fun e => h p List.mem_cons_self e.symm
    simp only [List.lookup, this]
    exact ih fun q hq => h q (List.mem_cons_of_mem _ hq)

theorem lookup_mem {α : Type} {l : List (String × α)} (hnd : (l.map (·.1)).Nodup) {x : String} {v : α}
    (h : (x, v) ∈ l) : l.lookup x = some v := by
  induction l with
  | nil => cases h
  | cons p l ih =>
    obtain ⟨y, w⟩ := p
    rw [List.map_cons, List.nodup_cons] at hnd
    rcases List.mem_cons.1 h with e | h
    · cases e
      simp [List.lookup]
    · have hne : x ≠ y := fun e => hnd.1 (List.mem_map.2 ⟨(x, v), h, e⟩)
      have : (x == y) = false := by rw [beq_eq_false_iff_ne]; exact hne
      simp only [List.lookup, this]
      exact ih hnd.2 h

theorem bases_imported {imports : List (String × Nat)} (hnd : (imports.map (·.1)).Nodup) :
    ∀ (rest : List ((String × String) × Nat)) (seen : List (String × Nat)),
      (∀ p ∈ rest, (p.1.1, p.2) ∈ imports) → (∀ p ∈ rest, ∀ q ∈ rest, q.1.2 ≠ p.1.1) →
      (∀ p ∈ rest, ∀ q ∈ seen, q.1 ≠ p.1.1) →
      bases imports seen rest = rest.map fun p => some (Base.imported p.2)
  | [], _, _, _, _ => rfl
  | ((b, c), i) :: rest, seen, h1, h2, h3 => by
    have e1 : seen.lookup b = none := lookup_none fun q hq => h3 _ List.mem_cons_self q hq
    have e2 : imports.lookup b = some i := lookup_mem hnd (h1 _ List.mem_cons_self)
    simp only [bases, e1, e2, Option.map_some, List.map_cons]
    rw [bases_imported hnd rest ((c, i) :: seen) (fun p hp => h1 p (List.mem_cons_of_mem _ hp))
      (fun p hp q hq => h2 p (List.mem_cons_of_mem _ hp) q (List.mem_cons_of_mem _ hq))]
    intro p hp q hq
    rcases List.mem_cons.1 hq with rfl | hq
    · exact h2 p (List.mem_cons_of_mem _ hp) ((b, c), i) List.mem_cons_self
    · exact h3 p (List.mem_cons_of_mem _ hp) q hq

theorem helperNames_fresh : ∀ (ns used : List String),
    (helperNames used ns).Nodup ∧ (∀ x ∈ helperNames used ns, x ∉ used) ∧
      (helperNames used ns).length = ns.length
  | [], _ => by simp [helperNames]
  | n :: ns, used => by
    obtain ⟨h1, h2, h3⟩ := helperNames_fresh ns (allocFrom 2 ("quantized_" ++ n) used :: used)
    have hf := (allocFrom_spec 2 ("quantized_" ++ n) used).1
    simp only [helperNames, List.nodup_cons, List.mem_cons, List.length_cons, h3, and_true]
    refine ⟨⟨fun h => h2 _ h List.mem_cons_self, h1⟩, ?_⟩
    rintro x (rfl | hx)
    · exact hf
    · exact fun h => h2 x hx (List.mem_cons_of_mem _ h)

/-- What the lemmas about references need of the helpers. -/
structure Setting (hs : List (Helper V)) (new : Nat → Option String) (ρ : String → Option String) :
    Prop where
  names : ∀ i, new i = (hs[i]?).map Helper.new
  nodup : (hs.map Helper.new).Nodup
  other : ∀ x, (∀ h ∈ hs, x ≠ h.old) → ρ x = none
  once : ∀ h ∈ hs, ∀ h' ∈ hs, h.new ≠ h'.old

theorem mapName_other {hs : List (Helper V)} {new : Nat → Option String} {ρ : String → Option String}
    (st : Setting hs new ρ) {x : String} (h : ∀ h ∈ hs, x ≠ h.old) : mapName ρ x = x := by
  simp only [mapName, st.other x h, Option.getD_none]

theorem generatedGlobals_other {hs : List (Helper V)} {glob : String → Option V} {x : String}
    (h : ∀ h ∈ hs, x ≠ h.new) : generatedGlobals hs glob x = glob x := by
  have : hs.find? (fun h => h.new == x) = none := by
    rw [List.find?_eq_none]
    intro y hy
    simp only [beq_iff_eq]
    exact fun e => h y hy e.symm
  simp only [generatedGlobals, this]

theorem generatedGlobals_new {hs : List (Helper V)} (hnd : (hs.map Helper.new).Nodup)
    {glob : String → Option V} {h : Helper V} (hm : h ∈ hs) :
    generatedGlobals hs glob h.new = some h.generated := by
  have : hs.find? (fun k => k.new == h.new) = some h := by
    induction hs with
    | nil => cases hm
    | cons k ks ih =>
      rw [List.map_cons, List.nodup_cons] at hnd
      rcases List.mem_cons.1 hm with rfl | hm
      · simp
      · have hne : k.new ≠ h.new := fun e => hnd.1 (List.mem_map.2 ⟨h, hm, e.symm⟩)
        rw [List.find?_cons_of_neg (by simpa using hne)]
        exact ih hnd.2 hm
  simp only [generatedGlobals, this]

theorem renameArgs_append (ρ : String → Option String) :
    ∀ as bs : Args, renameArgs ρ (as.append bs) = (renameArgs ρ as).append (renameArgs ρ bs)
  | .nil, _ => by simp only [Args.append, renameArgs]
  | .cons k e as, bs => by simp only [Args.append, renameArgs, renameArgs_append ρ as bs]

theorem evalArgs_append (py : Python V) (look : String → Option V) :
    ∀ as bs : Args, evalArgs py look (as.append bs) =
      (evalArgs py look as).bind fun vs => (evalArgs py look bs).bind fun ws => some (vs ++ ws)
  | .nil, bs => by simp [Args.append, evalArgs]
  | .cons k e as, bs => by
    simp only [Args.append, evalArgs, evalArgs_append py look as bs]
    cases eval py look e <;> simp
    cases evalArgs py look as <;> simp
    cases evalArgs py look bs <;> simp

theorem evalArgs_quantizers (py : Python V) (look : String → Option V) (ρ : String → Option String) :
    ∀ (qs : List (String × Nat)), (∀ q ∈ qs, mapName ρ q.1 = q.1) →
      evalArgs py look (renameArgs ρ (quantizerArgs qs)) =
        some (qs.map fun q => (some q.1, py.quantizer q.2))
  | [], _ => by simp [quantizerArgs, renameArgs, evalArgs]
  | (k, n) :: qs, h => by
    have hk : mapName ρ k = k := h (k, n) List.mem_cons_self
    have ih := evalArgs_quantizers py look ρ qs fun q hq => h q (List.mem_cons_of_mem _ hq)
    simp [quantizerArgs, renameArgs, evalArgs, rename, eval, ih, hk]

section Follow

variable {py : Python V} {hs : List (Helper V)} {quantizers : Nat → List (String × Nat)}
  {new : Nat → Option String} {ρ : String → Option String} {isLocal : String → Bool}
  {glob : String → Option V}

mutual

theorem eval_convert (st : Setting hs new ρ) (hf : Faithful py hs quantizers)
    (hloc : ∀ h ∈ hs, isLocal h.new = false)
    (hkw : ∀ i, ∀ q ∈ quantizers i, ∀ h ∈ hs, q.1 ≠ h.old) (env : List (String × V)) :
    ∀ e, Careful py hs quantizers isLocal glob e →
      eval py (reading isLocal env (generatedGlobals hs glob)) (rename ρ (resolve new e)) =
        eval py (reading isLocal env glob) e
  | .name x, hc => by
    simp only [Careful] at hc
    simp only [resolve, rename, eval, mapName_other st hc.1, reading, generatedGlobals_other hc.2]
  | .lit n, _ => by simp only [resolve, rename, eval]
  | .quantizer n, _ => by simp only [resolve, rename, eval]
  | .attr e a, hc => by
    simp only [Careful] at hc
    simp only [resolve, rename, eval, eval_convert st hf hloc hkw env e hc]
  | .call f as, hc => by
    simp only [Careful] at hc
    simp only [resolve, rename, eval, eval_convert st hf hloc hkw env f hc.1,
      evalArgs_convert st hf hloc hkw env as hc.2]
  | .helper i f as qs, hc => by
    simp only [Careful] at hc
    obtain ⟨ha, hc⟩ := hc
    have ia := evalArgs_convert st hf hloc hkw env as ha
    cases hi : hs[i]? with
    | none =>
      rw [hi] at hc
      have hn : new i = none := by rw [st.names, hi]; rfl
      have ifn := eval_convert st hf hloc hkw env f hc.2
      rcases hc.1 with rfl | rfl
      · simp only [resolve, rename, eval, ifn, ia]
      · simp only [resolve, hn, rename, eval, ifn, renameArgs_append, evalArgs_append, ia, quantizerArgs,
          renameArgs, evalArgs, Option.bind_some, List.append_nil]
        cases eval py (reading isLocal env glob) f <;> simp
    | some h =>
      rw [hi] at hc
      obtain ⟨rfl, hc⟩ := hc
      have hm : h ∈ hs := List.mem_of_getElem? hi
      have hn : new i = some h.new := by rw [st.names, hi]; rfl
      have e1 : mapName ρ h.new = h.new := mapName_other st (st.once h hm)
      have e2 : reading isLocal env (generatedGlobals hs glob) h.new = some h.generated := by
        simp only [reading, hloc h hm, generatedGlobals_new st.nodup hm, Bool.false_eq_true, if_false]
      simp only [resolve, hn, rename, eval, e1, e2, hc env, Option.bind_some, renameArgs_append,
        evalArgs_append, ia]
      rw [evalArgs_quantizers py _ ρ (quantizers i) fun q hq => mapName_other st (hkw i q hq)]
      cases evalArgs py (reading isLocal env glob) as with
      | none => rfl
      | some vs => simp only [Option.bind_some, hf i h hi vs]

theorem evalArgs_convert (st : Setting hs new ρ) (hf : Faithful py hs quantizers)
    (hloc : ∀ h ∈ hs, isLocal h.new = false)
    (hkw : ∀ i, ∀ q ∈ quantizers i, ∀ h ∈ hs, q.1 ≠ h.old) (env : List (String × V)) :
    ∀ as, CarefulArgs py hs quantizers isLocal glob as →
      evalArgs py (reading isLocal env (generatedGlobals hs glob)) (renameArgs ρ (resolveArgs new as)) =
        evalArgs py (reading isLocal env glob) as
  | .nil, _ => by simp only [resolveArgs, renameArgs, evalArgs]
  | .cons k e as, hc => by
    simp only [CarefulArgs] at hc
    have hk : k.map (mapName ρ) = k := by
      cases k with
      | none => rfl
      | some x => rw [Option.map_some, mapName_other st (hc.1 x rfl)]
    simp only [resolveArgs, renameArgs, evalArgs, hk, eval_convert st hf hloc hkw env e hc.2.1,
      evalArgs_convert st hf hloc hkw env as hc.2.2]

end

theorem exec_convert (st : Setting hs new ρ) (hf : Faithful py hs quantizers)
    (hloc : ∀ h ∈ hs, isLocal h.new = false)
    (hkw : ∀ i, ∀ q ∈ quantizers i, ∀ h ∈ hs, q.1 ≠ h.old) :
    ∀ (ss : List Stmt) (env : List (String × V)), (∀ x ∈ assigned ss, ∀ h ∈ hs, x ≠ h.old) →
      (∀ s ∈ ss, match s with
        | .assign _ e | .ret e => Careful py hs quantizers isLocal glob e) →
      exec py isLocal (generatedGlobals hs glob) env (ss.map (Stmt.convert new ρ)) =
        exec py isLocal glob env ss
  | [], _, _, _ => rfl
  | .assign x e :: ss, env, hx, hc => by
    have he := hc _ List.mem_cons_self
    simp only [List.map_cons, Stmt.convert, exec, mapName_other st (hx x (by simp [assigned])),
      eval_convert st hf hloc hkw env e he]
    cases eval py (reading isLocal env glob) e with
    | none => rfl
    | some v =>
      exact exec_convert st hf hloc hkw ss ((x, v) :: env)
        (fun y hy => hx y (by simp only [assigned, List.mem_cons]; exact .inr hy))
        fun s hs => hc s (List.mem_cons_of_mem _ hs)
  | .ret e :: ss, env, _, hc => by
    have he := hc _ List.mem_cons_self
    simp only [List.map_cons, Stmt.convert, exec, eval_convert st hf hloc hkw env e he]

end Follow

theorem assigned_convert (new : Nat → Option String) (ρ : String → Option String) :
    ∀ ss : List Stmt, assigned (ss.map (Stmt.convert new ρ)) = (assigned ss).map (mapName ρ)
  | [] => rfl
  | .assign x e :: ss => by simp only [List.map_cons, Stmt.convert, assigned, assigned_convert new ρ ss]
  | .ret e :: ss => by simp only [List.map_cons, Stmt.convert, assigned, assigned_convert new ρ ss]

theorem map_mapName {hs : List (Helper V)} {new : Nat → Option String} {ρ : String → Option String}
    (st : Setting hs new ρ) : ∀ xs : List String, (∀ x ∈ xs, ∀ h ∈ hs, x ≠ h.old) →
      xs.map (mapName ρ) = xs
  | [], _ => rfl
  | x :: xs, h => by
    rw [List.map_cons, mapName_other st (h x List.mem_cons_self),
      map_mapName st xs fun y hy => h y (List.mem_cons_of_mem _ hy)]

theorem nameMap_other {hs : List (String × String)} {x : String} (h : ∀ p ∈ hs, x ≠ p.1) :
    nameMap hs x = none := by
  have : hs.filter (fun h => h.1 == x) = [] := by
    rw [List.filter_eq_nil_iff]
    intro p hp
    simp only [beq_iff_eq]
    exact fun e => h p hp e.symm
  simp only [nameMap, this]

/-! ## Properties -/

/-- **C103.** A name that is asked for is given if it is free; otherwise the
search for a free one with an index ends, with one that is free. -/
theorem free_name_found (first : Nat) (preferred : String) (used : List String) :
    (∃ r, search preferred used (used.length + 1) first = some r) ∧
    allocFrom first preferred used ∉ used ∧
    (preferred ∉ used → allocFrom first preferred used = preferred) ∧
    (preferred ∈ used → ∃ i, first ≤ i ∧ allocFrom first preferred used = preferred ++ "_" ++ toString i) := by
  refine ⟨search_ends _ _ _, (allocFrom_spec _ _ _).1, allocFrom_free, fun h => ?_⟩
  rcases (allocFrom_spec first preferred used).2 with ⟨h', _⟩ | ⟨_, h'⟩
  · exact absurd h h'
  · exact h'

/-- **C103.** However the module types are named, every one gets a class name and
a base alias; no two classes have the same name and no two base classes have the
same alias. -/
theorem class_names_distinct (totals names : List String) :
    (allocAll (.init totals) names).length = names.length ∧
    ((allocAll (.init totals) names).map (·.2)).Nodup ∧
    ((allocAll (.init totals) names).map (·.1)).Nodup :=
  ⟨length_allocAll _ _, (allocAll_fresh names (.init totals)).1, (allocAll_fresh names (.init totals)).2.2.1⟩

/-- **C103.** If the names of the module types are all different, the class for a
type `Name` is called `QuantizedName` and its base class keeps its name. -/
theorem class_names_plain (names : List String) (hnd : names.Nodup) :
    allocAll (.init names) names = names.map fun n => (n, "Quantized" ++ n) := by
  have key : ∀ (rest : List String) (a : Allocator), a.totals = names →
      (∀ n ∈ rest, n ∈ names ∧ n ∉ a.aliases ∧ "Quantized" ++ n ∉ a.classes) → rest.Nodup →
      allocAll a rest = rest.map fun n => (n, "Quantized" ++ n) := by
    intro rest
    induction rest with
    | nil => intros; rfl
    | cons n ns ih =>
      intro a ht h hr
      obtain ⟨h1, h2, h3⟩ := h n List.mem_cons_self
      rw [List.nodup_cons] at hr
      have hcount : ¬ 1 < a.totals.count n := by
        rw [ht]; exact Nat.not_lt.2 (List.nodup_iff_count_le_one.1 hnd n)
      have e : a.alloc n = ((n, "Quantized" ++ n),
          { a with asked := n :: a.asked, classes := ("Quantized" ++ n) :: a.classes,
                   aliases := n :: a.aliases }) := by
        simp only [Allocator.alloc, if_neg hcount, allocUnique, allocFrom_free h2, allocFrom_free h3]
      simp only [allocAll, e, List.map_cons, List.cons.injEq, true_and]
      refine ih _ ht (fun m hm => ?_) hr.2
      obtain ⟨g1, g2, g3⟩ := h m (List.mem_cons_of_mem _ hm)
      have hne : m ≠ n := fun e => hr.1 (e ▸ hm)
      refine ⟨g1, ?_, ?_⟩
      · simp only [List.mem_cons, not_or]; exact ⟨hne, g2⟩
      · simp only [List.mem_cons, not_or]; exact ⟨fun e => hne (append_inj_right e), g3⟩
  exact key names _ rfl (fun n hn => ⟨hn, by simp [Allocator.init], by simp [Allocator.init]⟩) hnd

/-- **C103 (partial).** Every generated class derives from the module type it is
generated for, also if several types have the same name.  Missing: types whose
names start with `Quantized` (see `class_derives_from_other_type`). -/
theorem class_bases_partial (names : List String)
    (hq : ∀ n ∈ names, ¬ "Quantized".toList <+: n.toList) :
    moduleBases names = (List.range names.length).map fun i => some (Base.imported i) := by
  have hne := alias_ne_class hq (.init names)
  obtain ⟨_, _, hnd, _⟩ := allocAll_fresh names (.init names)
  have himp : (((allocAll (.init names) names).zipIdx.map fun p => (p.1.1, p.2)).map (·.1)) =
      (allocAll (.init names) names).map (·.1) := by
    rw [List.map_map]
    have : ((fun x : String × Nat => x.1) ∘ fun p : (String × String) × Nat => (p.1.1, p.2)) =
        (fun x : String × String => x.1) ∘ fun p : (String × String) × Nat => p.1 := rfl
    rw [this, ← List.map_map, List.zipIdx_map_fst]
  unfold moduleBases
  simp only
  rw [bases_imported (by rw [himp]; exact hnd)]
  · rw [show (fun p : (String × String) × Nat => some (Base.imported p.2)) =
        (fun i => some (Base.imported i)) ∘ fun p => p.2 from rfl, ← List.map_map, List.zipIdx_map_snd,
      length_allocAll, List.range_eq_range']
  · intro p hp
    exact List.mem_map.2 ⟨p, hp, rfl⟩
  · intro p hp q hq' e
    have h1 := (hne p.1 (List.fst_mem_of_mem_zipIdx hp)).1
    have h2 := (hne q.1 (List.fst_mem_of_mem_zipIdx hq')).2
    rw [e] at h2
    exact h1 h2
  · intro p _ q hq'
    cases hq'

/-- **C103.** Helper functions get pairwise different names, which differ from
the names of the generated classes and methods (`used`). -/
theorem helper_names_distinct (used names : List String) :
    (helperNames used names).length = names.length ∧ (helperNames used names).Nodup ∧
    ∀ x ∈ helperNames used names, x ∉ used :=
  ⟨(helperNames_fresh names used).2.2, (helperNames_fresh names used).1, (helperNames_fresh names used).2.1⟩

/-- **C103.** If the names of the helpers are all different and nothing else has
the resulting names, the helper `name` is called `quantized_name`. -/
theorem helper_names_plain : ∀ (names used : List String), names.Nodup →
    (∀ n ∈ names, "quantized_" ++ n ∉ used) →
    helperNames used names = names.map fun n => "quantized_" ++ n
  | [], _, _, _ => rfl
  | n :: ns, used, hnd, h => by
    rw [List.nodup_cons] at hnd
    simp only [helperNames, List.map_cons, allocFrom_free (h n List.mem_cons_self), List.cons.injEq, true_and]
    refine helper_names_plain ns _ hnd.2 fun m hm => ?_
    simp only [List.mem_cons, not_or]
    exact ⟨fun e => hnd.1 (append_inj_right e ▸ hm), h m (List.mem_cons_of_mem _ hm)⟩

/-- **C103.** A name that is not called is replaced by the new name of the helper
with that name, if there is exactly one; all other names stay. -/
theorem names_replaced (hs : List (String × String)) (x y : String) :
    (nameMap hs x = some y ↔ ∃ before after, hs = before ++ (x, y) :: after ∧
      (∀ h ∈ before, h.1 ≠ x) ∧ ∀ h ∈ after, h.1 ≠ x) ∧
    (nameMap hs x = none → rename (nameMap hs) (.name x) = .name x) ∧
    (nameMap hs x = some y → rename (nameMap hs) (.name x) = .name y) := by
  refine ⟨⟨fun h => ?_, ?_⟩, fun h => by simp [rename, mapName, h], fun h => by simp [rename, mapName, h]⟩
  · have hf : hs.filter (fun h => h.1 == x) = [(x, y)] := by
      unfold nameMap at h
      split at h
      · rename_i k hk
        cases h
        have : k ∈ hs.filter (fun h => h.1 == x) := by rw [hk]; exact List.mem_cons_self
        have hx : k.1 = x := by simpa using (List.mem_filter.1 this).2
        rw [hk, ← hx]
      · cases h
    clear h
    induction hs with
    | nil => cases hf
    | cons k ks ih =>
      by_cases hk : k.1 = x
      · rw [List.filter_cons_of_pos (by simpa using hk)] at hf
        injection hf with h1 h2
        refine ⟨[], ks, by rw [h1]; rfl, by simp, fun h hm => ?_⟩
        have := (List.filter_eq_nil_iff.1 h2) h hm
        simpa using this
      · rw [List.filter_cons_of_neg (by simpa using hk)] at hf
        obtain ⟨b, a, h1, h2, h3⟩ := ih hf
        refine ⟨k :: b, a, by rw [h1]; rfl, ?_, h3⟩
        intro h hm
        rcases List.mem_cons.1 hm with rfl | hm
        · exact hk
        · exact h2 h hm
  · rintro ⟨b, a, rfl, hb, ha⟩
    have e1 : b.filter (fun h => h.1 == x) = [] := by
      rw [List.filter_eq_nil_iff]; intro h hm; simpa using hb h hm
    have e2 : a.filter (fun h => h.1 == x) = [] := by
      rw [List.filter_eq_nil_iff]; intro h hm; simpa using ha h hm
    have e3 : (b ++ (x, y) :: a).filter (fun h => h.1 == x) = [(x, y)] := by
      rw [List.filter_append, e1, List.filter_cons_of_pos (by simp), e2]; rfl
    simp only [nameMap, e3]

/-- **C103 (partial).** A converted function keeps its name and does what the
original does: its calls of helpers reach the generated helpers, with their
quantizers, and everything else is what it was.  `names` are the names of the
helpers' definitions, `used` the names of generated classes and methods.
Missing: functions that use the old or new name of a helper in another way: as
their own name, a parameter, a local variable, the keyword of an argument or a
value (see the deviations), and helpers one of which has another's new name. -/
theorem references_follow_partial (py : Python V) (hs : List (Helper V)) (used names : List String)
    (quantizers : Nat → List (String × Nat)) (glob : String → Option V) (d : Def)
    (hnew : hs.map Helper.new = helperNames used names)
    (honce : ∀ h ∈ hs, ∀ h' ∈ hs, h.new ≠ h'.old)
    (hkw : ∀ i, ∀ q ∈ quantizers i, ∀ h ∈ hs, q.1 ≠ h.old)
    (hf : Faithful py hs quantizers) (hd : CarefulDef py hs quantizers glob d) :
    let d' := d.convert (fun i => (helperNames used names)[i]?) (nameMap (hs.map fun h => (h.old, h.new)))
    d'.name = d.name ∧ d'.params = d.params ∧
    ∀ args, run py (generatedGlobals hs glob) d' args = run py glob d args := by
  intro d'
  have st : Setting hs (fun i => (helperNames used names)[i]?) (nameMap (hs.map fun h => (h.old, h.new))) := by
    refine ⟨fun i => ?_, ?_, fun x hx => ?_, honce⟩
    · rw [← hnew, List.getElem?_map]
    · rw [hnew]; exact (helperNames_fresh names used).1
    · refine nameMap_other fun p hp => ?_
      obtain ⟨h, hh, rfl⟩ := List.mem_map.1 hp
      exact hx h hh
  have hp : d'.params = d.params := map_mapName st _ fun x hx => (hd.params x hx).1
  have hl : assigned d'.body = assigned d.body := by
    show assigned (d.body.map _) = _
    rw [assigned_convert, map_mapName st _ fun x hx => (hd.locals x hx).1]
  refine ⟨mapName_other st hd.name, hp, fun args => ?_⟩
  simp only [run, hp, hl]
  by_cases ha : args.map (·.1) = d.params
  · rw [if_pos ha, if_pos ha]
    refine exec_convert st hf (fun h hh => ?_) hkw d.body args (fun x hx => (hd.locals x hx).1) hd.body
    have h1 : h.new ∉ d.params := fun hm => (hd.params _ hm).2 h hh rfl
    have h2 : h.new ∉ assigned d.body := fun hm => (hd.locals _ hm).2 h hh rfl
    simp [h1, h2]
  · rw [if_neg ha, if_neg ha]

/-! ## Deviations -/

namespace Small

/-- What the helper `norm` computes (one more than its argument). -/
def base : List (Option String × Nat) → Option Nat
  | [(none, x)] => some (x + 1)
  | _ => none

/-- What the second helper computes. -/
def base2 : List (Option String × Nat) → Option Nat
  | [(none, x)] => some (x + 10)
  | _ => none

/-- A call of a generated helper, whose last argument is the quantizer `q`. -/
def generated (f : List (Option String × Nat) → Option Nat) (vs : List (Option String × Nat)) :
    Option Nat :=
  match vs.getLast? with
  | some (some k, _) => if k = "q" then f vs.dropLast else none
  | _ => none

/-- The functions but `apply`. -/
def plain (g : Nat) (vs : List (Option String × Nat)) : Option Nat :=
  if g = 100 then base vs
  else if g = 101 then generated base vs
  else if g = 102 then (match vs with
    | [(some k, x)] => if k = "norm" then some (2 * x) else none
    | _ => none)
  else if g = 103 then base2 vs
  else if g = 104 then generated base2 vs
  else none

/-- A Python with the helpers 100 and 103, their generated versions 101 and 104,
a function 102 with the keyword parameter `norm` and a function 105 that applies
its first argument to its second. -/
def py : Python Nat where
  lit n := n
  attr _ _ := none
  call g vs :=
    if g = 105 then (match vs with
      | [(none, f), (none, x)] => plain f [(none, x)]
      | _ => none)
    else plain g vs
  quantizer _ := 0

/-- The globals of the source module. -/
def glob (x : String) : Option Nat :=
  if x = "norm" then some 100
  else if x = "scale" then some 102
  else if x = "quantized_norm" then some 103
  else if x = "apply" then some 105
  else none

/-- The helper `norm`. -/
def helpers : List (Helper Nat) := [⟨"norm", "quantized_norm", 100, 101⟩]

/-- Two helpers, the second of which has the new name of the first. -/
def chained : List (Helper Nat) :=
  [⟨"norm", "quantized_norm", 100, 101⟩, ⟨"quantized_norm", "quantized_quantized_norm", 103, 104⟩]

/-- The quantizer of both helpers. -/
def quantizers (_ : Nat) : List (String × Nat) := [("q", 0)]

/-- The converted definition. -/
def converted (hs : List (Helper Nat)) (d : Def) : Def :=
  d.convert (fun i => (helperNames ["QuantizedNet", "forward"] (hs.map Helper.old))[i]?)
    (nameMap (hs.map fun h => (h.old, h.new)))

/-- `norm(e)`, marked. -/
def callNorm (e : Expr) : Expr := .helper 0 (.name "norm") (.cons none e .nil) (some [("q", 0)])

/-- `def forward(x): y = norm(x); return norm(y)`. -/
def good : Def := ⟨"forward", ["x"], [.assign "y" (callNorm (.name "x")), .ret (callNorm (.name "y"))]⟩

/-- `def forward(x): return scale(norm=x)`. -/
def keyword : Def := ⟨"forward", ["x"], [.ret (.call (.name "scale") (.cons (some "norm") (.name "x") .nil))]⟩

/-- `def forward(norm): return norm`. -/
def parameter : Def := ⟨"forward", ["norm"], [.ret (.name "norm")]⟩

/-- `def norm(x): return norm(x)`, a method. -/
def method : Def := ⟨"norm", ["x"], [.ret (callNorm (.name "x"))]⟩

/-- `def forward(x): return apply(norm, x)`. -/
def value : Def :=
  ⟨"forward", ["x"], [.ret (.call (.name "apply") (.cons none (.name "norm") (.cons none (.name "x") .nil)))]⟩

/-- `def forward(x): return quantized_norm(x)`, where `quantized_norm` is not
converted. -/
def taken : Def := ⟨"forward", ["x"], [.ret (.call (.name "quantized_norm") (.cons none (.name "x") .nil))]⟩

/-- `def forward(x): quantized_norm = norm(x); return quantized_norm`. -/
def local' : Def :=
  ⟨"forward", ["x"], [.assign "quantized_norm" (callNorm (.name "x")), .ret (.name "quantized_norm")]⟩

theorem generated_append (f : List (Option String × Nat) → Option Nat) (vs : List (Option String × Nat)) :
    generated f (vs ++ [(some "q", 0)]) = f vs := by
  simp [generated]

theorem faithful : Faithful py helpers quantizers := by
  intro i h hi vs
  match i with
  | 0 =>
    cases hi
    show plain 101 (vs ++ [(some "q", 0)]) = plain 100 vs
    exact generated_append base vs
  | i + 1 => cases hi

theorem faithful_chained : Faithful py chained quantizers := by
  intro i h hi vs
  match i with
  | 0 =>
    cases hi
    show plain 101 (vs ++ [(some "q", 0)]) = plain 100 vs
    exact generated_append base vs
  | 1 =>
    cases hi
    show plain 104 (vs ++ [(some "q", 0)]) = plain 103 vs
    exact generated_append base2 vs
  | i + 2 => cases hi

theorem names : helpers.map Helper.new = helperNames ["QuantizedNet", "forward"] ["norm"] := by
  decide +kernel

theorem names_chained :
    chained.map Helper.new = helperNames ["QuantizedNet", "forward"] ["norm", "quantized_norm"] := by
  decide +kernel

end Small

open Small

/-- **C103, deviation.** For types `Foo` and `QuantizedFoo` the class generated
for the second derives from the class generated for the first: the import of
`QuantizedFoo` is hidden by the class statement of that name. -/
theorem class_derives_from_other_type :
    moduleBases ["Foo", "QuantizedFoo"] = [some (.imported 0), some (.generated 0)] := by
  decide +kernel

/-- **C103, deviation.** The keyword of an argument is renamed if a helper has
that name, though it is the name of a parameter of the called function: the call
fails. -/
theorem keyword_renamed :
    run py glob keyword [("x", 3)] = some 6 ∧
    run py (generatedGlobals helpers glob) (converted helpers keyword) [("x", 3)] = none := by
  constructor <;> decide +kernel

/-- **C103, deviation.** A parameter is renamed if a helper has its name: calls
that pass it by keyword fail. -/
theorem parameter_renamed :
    run py glob parameter [("norm", 3)] = some 3 ∧
    (converted helpers parameter).params = ["quantized_norm"] ∧
    run py (generatedGlobals helpers glob) (converted helpers parameter) [("norm", 3)] = none := by
  refine ⟨?_, ?_, ?_⟩ <;> decide +kernel

/-- **C103, deviation.** A method with the name of a helper is renamed: the
generated class has no method of that name, so that callers of it get the method
of the base class, which is not quantized. -/
theorem method_renamed : method.name = "norm" ∧ (converted helpers method).name = "quantized_norm" := by
  constructor <;> decide +kernel

/-- **C103, deviation.** A helper that is passed as a value is replaced by the
generated helper, whose quantizers nobody provides: calling it fails. -/
theorem value_lacks_quantizers :
    run py glob value [("x", 3)] = some 4 ∧
    run py (generatedGlobals helpers glob) (converted helpers value) [("x", 3)] = none := by
  constructor <;> decide +kernel

/-- **C103, deviation.** If the new name of a helper is the name of another, its
calls are renamed twice and reach the other one. -/
theorem call_renamed_twice :
    run py glob good [("x", 3)] = some 5 ∧
    run py (generatedGlobals chained glob) (converted chained good) [("x", 3)] = some 23 := by
  constructor <;> decide +kernel

/-- **C103, deviation.** The new name of a helper may be the name of a function
that the module uses and that is not converted: its calls reach the helper, and
fail. -/
theorem imported_name_taken :
    run py glob taken [("x", 3)] = some 13 ∧
    run py (generatedGlobals helpers glob) (converted helpers taken) [("x", 3)] = none := by
  constructor <;> decide +kernel

/-- **C103, deviation.** A local variable with the new name of a helper hides it:
the call of the helper reads the variable before it is assigned. -/
theorem local_hides_helper :
    run py glob local' [("x", 3)] = some 4 ∧
    run py (generatedGlobals helpers glob) (converted helpers local') [("x", 3)] = none := by
  constructor <;> decide +kernel

/-! ## Concrete cases -/

/-- Types with the same name, and one that has a name an index would give. -/
example : allocAll (.init ["A", "B", "A"]) ["A", "B", "A"] =
    [("__ffaq_base_A_0", "QuantizedA_0"), ("B", "QuantizedB"), ("__ffaq_base_A_1", "QuantizedA_1")] := by
  decide +kernel

example : allocAll (.init ["A", "A", "A_0"]) ["A", "A", "A_0"] =
    [("__ffaq_base_A_0", "QuantizedA_0"), ("__ffaq_base_A_1", "QuantizedA_1"), ("A_0", "QuantizedA_0_1")] := by
  decide +kernel

example : moduleBases ["A", "B", "A"] = [some (.imported 0), some (.imported 1), some (.imported 2)] := by
  decide +kernel

example : ["A", "B"].Nodup := by decide

example : ∀ n ∈ ["A", "B", "A", "Quant_1"], ¬ "Quantized".toList <+: n.toList := by decide

example : helperNames ["QuantizedNet", "quantized_f"] ["f", "g", "f"] =
    ["quantized_f_2", "quantized_g", "quantized_f_3"] := by decide +kernel

example : ["f", "g"].Nodup ∧ ∀ n ∈ ["f", "g"], "quantized_" ++ n ∉ ["QuantizedNet", "forward"] := by
  decide +kernel

/-- The hypotheses of `references_follow_partial` hold for a function that calls
a helper twice. -/
example : ∀ args, run py (generatedGlobals helpers glob) (converted helpers good) args =
    run py glob good args := by
  have h := references_follow_partial py helpers ["QuantizedNet", "forward"] ["norm"] quantizers glob good
    names (by decide) (by simp [quantizers, helpers]) faithful
    ⟨by decide, by decide, by decide, by
      intro s hs
      rcases List.mem_cons.1 hs with rfl | hs
      · simp only [callNorm, Careful, CarefulArgs, helpers, quantizers, eval]
        refine ⟨by decide, trivial, fun env => ?_⟩
        simp [reading, good, assigned, glob]
      rcases List.mem_cons.1 hs with rfl | hs
      · simp only [callNorm, Careful, CarefulArgs, helpers, quantizers, eval]
        refine ⟨by decide, trivial, fun env => ?_⟩
        simp [reading, good, assigned, glob]
      · cases hs⟩
  exact h.2.2

example : run py (generatedGlobals helpers glob) (converted helpers good) [("x", 3)] = some 5 := by
  decide +kernel

example : nameMap [("f", "quantized_f"), ("g", "quantized_g"), ("f", "quantized_f_2")] "g" = some "quantized_g" ∧
    nameMap [("f", "quantized_f"), ("g", "quantized_g"), ("f", "quantized_f_2")] "f" = none := by
  decide +kernel

/-- The helpers of `call_renamed_twice` are faithful and have the names they are
given. -/
example : Faithful py chained quantizers ∧
    chained.map Helper.new = helperNames ["QuantizedNet", "forward"] ["norm", "quantized_norm"] :=
  ⟨faithful_chained, names_chained⟩

end FF.HelperNames
