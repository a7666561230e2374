/-
What names, aliases and tags in module queries stand for: `get_caller_context`, `parse`, `register_mpath_query_extension`,
mpath/_parser.py:183-224, 409-443; `query`, `aliases`, `local_context`, `caller_context`, mpath/__init__.py:45-53, 106-141;
`query_for_module`, `search`, mpath/_search.py:246-316; `ClassFragment.from_raw_string_with_context`,
mpath/fragments.py:104-129; `BaseSelector.__truediv__`, `__rtruediv__`, mpath/selector.py:78-89; `find_quantizers`,
`QuantizationConfig.add_rule`, quantization/quant_init.py:214-236, 283-320.

Simplifications:
* a frame is its names; the frames of the functions of the library hold any names;
* parsing is given (see C36); of a query, the text of one `[cls:…]` is looked at.
-/
import Verif.Util.Dict

namespace FF.QueryCtx

/-! ## Model -/

/-- A name. -/
abbrev Name := List Char

section
variable {V S X : Type}

/-- A frame: `f_locals` (with the variables of enclosing functions that the code of the frame uses), `f_globals` and
`f_builtins`.  `enclosing` are all variables of the enclosing functions, innermost first. -/
structure Frame (V : Type) where
  locals : List (Name × V)
  enclosing : List (List (Name × V))
  globals : List (Name × V)
  builtins : List (Name × V)

/-- `{**a, **b}`. -/
def update (a b : List (Name × V)) : List (Name × V) := b.foldl (fun d e => Dict.set d e.1 e.2) a

/-- `{**f_builtins, **f_globals, **f_locals}`: _parser.py:424-428. -/
def contextOf (f : Frame V) : List (Name × V) := update (update (update [] f.builtins) f.globals) f.locals

/-- The walk to outer frames: _parser.py:419-421. -/
def walk : Nat → List (Frame V) → List (Frame V)
  | 0, s => s
  | n + 1, _ :: g :: s => walk n (g :: s)
  | _ + 1, s => s

/-- The frames of the functions of the library. -/
structure Lib (V : Type) where
  getCallerContext : Frame V
  parse : Frame V
  localContext : Frame V
  callerContext : Frame V
  query : Frame V
  queryForModule : Frame V
  search : Frame V
  findQuantizers : Frame V
  divide : Frame V
  aliases : Frame V
  addRule : Frame V

/-- `get_caller_context(stack_depth)`: _parser.py:409-432.  The stack is that of its caller. -/
def getCallerContext (lib : Lib V) (depth : Nat) (stack : List (Frame V)) : List (Name × V) :=
  match walk (depth + 1) (lib.getCallerContext :: stack) with
  | f :: _ => contextOf f
  | [] => []

/-- `local_context`: mpath/__init__.py:45-47. -/
def localContext (lib : Lib V) (stack : List (Frame V)) : List (Name × V) :=
  getCallerContext lib 1 (lib.localContext :: stack)

/-- `caller_context`: mpath/__init__.py:50-52. -/
def callerContext (lib : Lib V) (stack : List (Frame V)) : List (Name × V) :=
  getCallerContext lib 2 (lib.callerContext :: stack)

/-- `context or …`. -/
def orElse (c d : List (Name × V)) : List (Name × V) := if c.isEmpty then d else c

/-- The context in which `_parser.parse` parses: _parser.py:435-443. -/
def parseContext (lib : Lib V) (stack : List (Frame V)) (c : List (Name × V)) : List (Name × V) :=
  orElse c (getCallerContext lib 1 (lib.parse :: stack))

/-- The context of `mpath.query`: mpath/__init__.py:105-106. -/
def queryContext (lib : Lib V) (stack : List (Frame V)) (given : Option (List (Name × V))) : List (Name × V) :=
  parseContext lib (lib.query :: stack) (orElse (given.getD []) (callerContext lib (lib.query :: stack)))

/-- The context of `query_for_module`: _search.py:281-284. -/
def queryForModuleContext (lib : Lib V) (depth : Nat) (stack : List (Frame V)) : List (Name × V) :=
  parseContext lib (lib.queryForModule :: stack) (getCallerContext lib depth (lib.queryForModule :: stack))

/-- Ways to give a query as a string. -/
inductive Entry where
  | query
  | search
  | queryForModule
  | findQuantizers
  | divide
  | aliases
  | addRule
  deriving DecidableEq, Repr

/-- The context of each of them, by the stack of the caller: mpath/__init__.py:105-106, 138-140, _search.py:314-316,
quant_init.py:230-235, selector.py:82, 88, quant_init.py:318. -/
def contextUsed (lib : Lib V) (stack : List (Frame V)) : Entry → List (Name × V)
  | .query => queryContext lib stack none
  | .search => queryForModuleContext lib 2 (lib.search :: stack)
  | .queryForModule => queryForModuleContext lib 1 stack
  | .findQuantizers => queryForModuleContext lib 2 (lib.findQuantizers :: stack)
  | .divide => queryContext lib (lib.divide :: stack) (some (callerContext lib (lib.divide :: stack)))
  | .aliases => parseContext lib (lib.aliases :: stack) (getCallerContext lib 1 (lib.aliases :: stack))
  | .addRule => queryContext lib (lib.addRule :: stack) (some (localContext lib (lib.addRule :: stack)))

/-- `str.split(".")`. -/
def splitDots : List Char → List Name
  | [] => [[]]
  | c :: s =>
    if c = '.' then [] :: splitDots s
    else match splitDots s with
      | [] => [[c]]
      | p :: ps => (c :: p) :: ps

/-- `getattr`, repeatedly. -/
def getAttrs (attr : V → Name → Option V) : V → List Name → Option V
  | v, [] => some v
  | v, x :: xs => match attr v x with
    | none => none
    | some w => getAttrs attr w xs

/-- `ClassFragment.from_raw_string_with_context`: fragments.py:117-129; `none` is an exception. -/
def classOf (attr : V → Name → Option V) (ctx : List (Name × V)) (raw : List Char) : Option V :=
  match splitDots raw with
  | [] => none
  | root :: tail => match Dict.get ctx root with
    | none => none
    | some v => getAttrs attr v tail

/-- `mpath.aliases`: mpath/__init__.py:137-141; `parse` parses by the aliases so far. -/
def makeAliases (parse : List (Name × S) → List Char → Option S) :
    List (Name × S) → List (Name × List Char) → Option (List (Name × S))
  | d, [] => some d
  | d, (n, raw) :: kw => match parse d raw with
    | none => none
    | some s => makeAliases parse (Dict.set d n s) kw

/-- Programs that register extensions, for good or within a `with` block. -/
inductive Prog (X : Type) where
  | skip
  | raise
  | seq (p q : Prog X)
  | register (tag : Name) (ext : X) (override : Bool)
  | within (tag : Name) (ext : X) (override : Bool) (body : Prog X)

/-- `register_mpath_query_extension`: _parser.py:212-224; `none` is an exception. -/
def register (d : List (Name × X)) (tag : Name) (ext : X) (override : Bool) : Option (List (Name × X)) :=
  if tag ∈ Dict.keys d ∧ override = false then none else some (Dict.set d tag ext)

/-- `del d[tag]`. -/
def del (d : List (Name × X)) (tag : Name) : Option (List (Name × X)) :=
  if tag ∈ Dict.keys d then some (d.filter (fun e => decide (e.1 ≠ tag))) else none

/-- Running a program: whether it ends without an exception, and the extensions after it.  `QueryExtensionContext.__exit__`
is _parser.py:190-191. -/
def run : Prog X → List (Name × X) → Bool × List (Name × X)
  | .skip, d => (true, d)
  | .raise, d => (false, d)
  | .seq p q, d => match run p d with
    | (true, d') => run q d'
    | (false, d') => (false, d')
  | .register t x o, d => match register d t x o with
    | some d' => (true, d')
    | none => (false, d)
  | .within t x o body, d => match register d t x o with
    | none => (false, d)
    | some d' =>
      let r := run body d'
      match del r.2 t with
      | some d'' => (r.1, d'')
      | none => (false, r.2)

/-! ## Specification -/

/-- The value of a variable at a place in the code: of the function, else of the innermost enclosing function that has it,
else of the module, else a builtin. -/
inductive Value (f : Frame V) (x : Name) : V → Prop
  | loc {v} : Dict.get f.locals x = some v → Value f x v
  | enc {v pre d post} : Dict.get f.locals x = none → f.enclosing = pre ++ d :: post → (∀ d' ∈ pre, Dict.get d' x = none) →
      Dict.get d x = some v → Value f x v
  | glob {v} : Dict.get f.locals x = none → (∀ d ∈ f.enclosing, Dict.get d x = none) → Dict.get f.globals x = some v →
      Value f x v
  | builtin {v} : Dict.get f.locals x = none → (∀ d ∈ f.enclosing, Dict.get d x = none) → Dict.get f.globals x = none →
      Dict.get f.builtins x = some v → Value f x v

/-- Attributes of values. -/
inductive Attrs (attr : V → Name → Option V) : V → List Name → V → Prop
  | nil (v : V) : Attrs attr v [] v
  | cons {v w u : V} {x : Name} {xs : List Name} : attr v x = some w → Attrs attr w xs u → Attrs attr v (x :: xs) u

/-- The text of an expression `a.b.c`. -/
def text : Name → List Name → List Char
  | x, [] => x
  | x, y :: ys => x ++ '.' :: text y ys

/-- Programs that register extensions within `with` blocks only, and replace none. -/
def Prog.Tame : Prog X → Prop
  | .skip => True
  | .raise => True
  | .seq p q => p.Tame ∧ q.Tame
  | .register _ _ _ => False
  | .within _ _ o body => o = false ∧ body.Tame

/-! ## Lemmas -/

theorem get_update (b : List (Name × V)) : ∀ (a : List (Name × V)), (b.map Prod.fst).Nodup → ∀ x,
    Dict.get (update a b) x = (Dict.get b x).or (Dict.get a x) := by
  induction b with
  | nil => intro a _ x; simp [update, Dict.get]
  | cons e b ih =>
    intro a hn x
    obtain ⟨k, v⟩ := e
    rw [List.map_cons, List.nodup_cons] at hn
    rw [show update a ((k, v) :: b) = update (Dict.set a k v) b from rfl, ih _ hn.2, Dict.get_set,
      show Dict.get ((k, v) :: b) x = if k = x then some v else Dict.get b x from rfl]
    by_cases hk : k = x
    · subst hk
      have : Dict.get b k = none := by
        rw [Dict.get_none_iff]
        exact hn.1
      rw [if_pos rfl, if_pos rfl, this]
      rfl
    · rw [if_neg hk, if_neg hk]

/-- Frames hold dictionaries. -/
structure Frame.Ok (f : Frame V) : Prop where
  locals : (f.locals.map Prod.fst).Nodup
  globals : (f.globals.map Prod.fst).Nodup
  builtins : (f.builtins.map Prod.fst).Nodup

theorem get_contextOf {f : Frame V} (hf : f.Ok) (x : Name) : Dict.get (contextOf f) x =
    (Dict.get f.locals x).or ((Dict.get f.globals x).or (Dict.get f.builtins x)) := by
  unfold contextOf
  rw [get_update _ _ hf.locals, get_update _ _ hf.globals, get_update _ _ hf.builtins]
  simp [Dict.get]

theorem contextOf_ne {f : Frame V} (hf : f.Ok) (hb : f.builtins ≠ []) : (contextOf f).isEmpty = false := by
  obtain ⟨⟨k, v⟩, hm⟩ := List.exists_mem_of_ne_nil _ hb
  have hk : (Dict.get f.builtins k).isSome := by
    rw [Dict.get_isSome_iff]
    exact List.mem_map.2 ⟨_, hm, rfl⟩
  have h : Dict.get (contextOf f) k ≠ none := by
    rw [get_contextOf hf]
    intro h
    simp only [Option.or_eq_none_iff] at h
    rw [h.2.2] at hk
    cases hk
  cases hc : contextOf f with
  | nil => rw [hc] at h; exact absurd rfl h
  | cons _ _ => rfl

theorem contextUsed_eq {lib : Lib V} {f : Frame V} {stack : List (Frame V)} (hf : f.Ok) (hb : f.builtins ≠ []) (e : Entry)
    (he : e ≠ .addRule) : contextUsed lib (f :: stack) e = contextOf f := by
  have h := contextOf_ne hf hb
  cases e with
  | addRule => exact absurd rfl he
  | query =>
    simp [contextUsed, queryContext, parseContext, orElse, callerContext, getCallerContext, walk, h]
  | search => simp [contextUsed, queryForModuleContext, parseContext, orElse, getCallerContext, walk, h]
  | queryForModule => simp [contextUsed, queryForModuleContext, parseContext, orElse, getCallerContext, walk, h]
  | findQuantizers => simp [contextUsed, queryForModuleContext, parseContext, orElse, getCallerContext, walk, h]
  | divide => simp [contextUsed, queryContext, parseContext, orElse, callerContext, getCallerContext, walk, h]
  | aliases => simp [contextUsed, parseContext, orElse, getCallerContext, walk, h]

theorem splitDots_ne (s : List Char) : splitDots s ≠ [] := by
  cases s with
  | nil => simp [splitDots]
  | cons c s =>
    unfold splitDots
    split
    · simp
    · split <;> simp

theorem splitDots_append (x : Name) (hx : '.' ∉ x) (s : List Char) : splitDots (x ++ '.' :: s) = x :: splitDots s := by
  induction x with
  | nil => simp [splitDots]
  | cons c x ih =>
    have hc : c ≠ '.' := fun h => hx (h ▸ List.mem_cons_self)
    rw [List.cons_append, splitDots, if_neg hc, ih (fun h => hx (List.mem_cons_of_mem _ h))]

theorem splitDots_self (x : Name) (hx : '.' ∉ x) : splitDots x = [x] := by
  induction x with
  | nil => rfl
  | cons c x ih =>
    have hc : c ≠ '.' := fun h => hx (h ▸ List.mem_cons_self)
    unfold splitDots
    rw [if_neg hc, ih (fun h => hx (List.mem_cons_of_mem _ h))]

theorem splitDots_text (xs : List Name) : ∀ (x : Name), '.' ∉ x → (∀ y ∈ xs, '.' ∉ y) → splitDots (text x xs) = x :: xs := by
  induction xs with
  | nil => intro x hx _; exact splitDots_self x hx
  | cons y ys ih =>
    intro x hx h
    unfold text
    rw [splitDots_append x hx, ih y (h y List.mem_cons_self) (fun z hz => h z (List.mem_cons_of_mem _ hz))]

theorem getAttrs_iff (attr : V → Name → Option V) (xs : List Name) : ∀ v w, getAttrs attr v xs = some w ↔ Attrs attr v xs w := by
  induction xs with
  | nil =>
    intro v w
    constructor
    · intro h; cases h; exact .nil _
    · intro h; cases h; rfl
  | cons x xs ih =>
    intro v w
    constructor
    · intro h
      unfold getAttrs at h
      cases ha : attr v x with
      | none => rw [ha] at h; cases h
      | some u => rw [ha] at h; exact .cons ha ((ih _ _).1 h)
    · intro h
      cases h with
      | cons ha h' =>
        unfold getAttrs
        rw [ha]
        exact (ih _ _).2 h'

theorem value_iff {f : Frame V} (hf : f.Ok) {x : Name}
    (hc : Dict.get f.locals x = none → ∀ d ∈ f.enclosing, Dict.get d x = none) (v : V) :
    Dict.get (contextOf f) x = some v ↔ Value f x v := by
  rw [get_contextOf hf]
  constructor
  · intro h
    cases hl : Dict.get f.locals x with
    | some w => rw [hl] at h; cases h; exact .loc hl
    | none =>
      rw [hl] at h
      cases hg : Dict.get f.globals x with
      | some w => rw [hg] at h; cases h; exact .glob hl (hc hl) hg
      | none => rw [hg] at h; exact .builtin hl (hc hl) hg h
  · intro h
    cases h with
    | loc h => rw [h]; rfl
    | enc hl he _ hd =>
      rw [hc hl _ (by rw [he]; simp)] at hd
      cases hd
    | glob hl _ hg => rw [hl, hg]; rfl
    | builtin hl _ hg hb => rw [hl, hg, hb]; rfl

/-! ## Properties -/

/-- **C113 (partial).**  The class that `[cls:a.b.c]` stands for in a query is the value that the expression `a.b.c` has
where the query is written, however the query is given.

Missing: rules of a configuration, and variables of enclosing functions that the function does not use; see the
deviations. -/
theorem class_is_value_partial {lib : Lib V} {f : Frame V} {stack : List (Frame V)} (hf : f.Ok) (hb : f.builtins ≠ [])
    (e : Entry) (he : e ≠ .addRule) (attr : V → Name → Option V) (x : Name) (xs : List Name) (hx : '.' ∉ x)
    (hxs : ∀ y ∈ xs, '.' ∉ y) (hc : Dict.get f.locals x = none → ∀ d ∈ f.enclosing, Dict.get d x = none) (v : V) :
    classOf attr (contextUsed lib (f :: stack) e) (text x xs) = some v ↔ ∃ w, Value f x w ∧ Attrs attr w xs v := by
  rw [contextUsed_eq hf hb e he]
  unfold classOf
  rw [splitDots_text xs x hx hxs]
  simp only
  constructor
  · intro h
    cases hg : Dict.get (contextOf f) x with
    | none => rw [hg] at h; cases h
    | some w =>
      rw [hg] at h
      exact ⟨w, (value_iff hf hc w).1 hg, (getAttrs_iff attr xs w v).1 h⟩
  · rintro ⟨w, hw, ha⟩
    rw [(value_iff hf hc w).2 hw]
    exact (getAttrs_iff attr xs w v).2 ha

/-- **C113.**  A query with a context takes names from it alone, unless it is empty. -/
theorem given_context_used (lib : Lib V) (stack : List (Frame V)) (c : List (Name × V)) (hc : c ≠ []) :
    queryContext lib stack (some c) = c := by
  have : c.isEmpty = false := by
    cases c with
    | nil => exact absurd rfl hc
    | cons _ _ => rfl
  simp [queryContext, parseContext, orElse, this]

/-- **C113.**  `local_context()` gives the values that names have where it is called. -/
theorem local_context_values {lib : Lib V} {f : Frame V} {stack : List (Frame V)} (hf : f.Ok) (x : Name)
    (hc : Dict.get f.locals x = none → ∀ d ∈ f.enclosing, Dict.get d x = none) (v : V) :
    Dict.get (localContext lib (f :: stack)) x = some v ↔ Value f x v := value_iff hf hc v

/-- **C113.**  Each alias stands for its query, read with the aliases before it. -/
theorem aliases_in_order {parse : List (Name × S) → List Char → Option S} {kw : List (Name × List Char)}
    (hn : (kw.map Prod.fst).Nodup) {d : List (Name × S)} (h : makeAliases parse [] kw = some d) :
    Dict.keys d = kw.map Prod.fst ∧ ∀ pre n raw post, kw = pre ++ (n, raw) :: post →
      ∃ before s, makeAliases parse [] pre = some before ∧ parse before raw = some s ∧ Dict.get d n = some s := by
  have gen : ∀ (kw : List (Name × List Char)) (d₀ d : List (Name × S)), (Dict.keys d₀ ++ kw.map Prod.fst).Nodup →
      makeAliases parse d₀ kw = some d →
      (Dict.keys d = Dict.keys d₀ ++ kw.map Prod.fst ∧ (∀ n ∈ Dict.keys d₀, Dict.get d n = Dict.get d₀ n) ∧
        ∀ pre n raw post, kw = pre ++ (n, raw) :: post →
        ∃ before s, makeAliases parse d₀ pre = some before ∧ parse before raw = some s ∧ Dict.get d n = some s) := by
    intro kw
    induction kw with
    | nil =>
      intro d₀ d hn h
      cases h
      refine ⟨by simp, fun _ _ => rfl, ?_⟩
      intro pre n raw post he
      simp at he
    | cons e kw ih =>
      intro d₀ d hn h
      obtain ⟨k, r⟩ := e
      unfold makeAliases at h
      cases hp : parse d₀ r with
      | none => rw [hp] at h; cases h
      | some s =>
        rw [hp] at h
        simp only at h
        have hk : k ∉ Dict.keys d₀ := by
          intro hk
          rw [List.nodup_append] at hn
          exact hn.2.2 k hk k (by simp) rfl
        have hkeys : Dict.keys (Dict.set d₀ k s) = Dict.keys d₀ ++ [k] := by
          rw [Dict.set_new hk s]
          simp [Dict.keys]
        obtain ⟨h1, h2, h3⟩ := ih (Dict.set d₀ k s) d (by rw [hkeys]; simpa using hn) h
        refine ⟨by rw [h1, hkeys]; simp, ?_, ?_⟩
        · intro n hmem
          rw [h2 n (by rw [hkeys]; simp [hmem]), Dict.get_set_ne]
          exact fun he => hk (he ▸ hmem)
        · intro pre n raw post he
          cases pre with
          | nil =>
            simp only [List.nil_append, List.cons.injEq, Prod.mk.injEq] at he
            obtain ⟨⟨rfl, rfl⟩, rfl⟩ := he
            refine ⟨d₀, s, rfl, hp, ?_⟩
            rw [h2 k (by rw [hkeys]; simp), Dict.get_set_self]
          | cons e' pre =>
            rw [List.cons_append, List.cons.injEq] at he
            obtain ⟨rfl, he⟩ := he
            obtain ⟨before, s', h4, h5, h6⟩ := h3 pre n raw post he
            refine ⟨before, s', ?_, h5, h6⟩
            unfold makeAliases
            rw [hp]
            exact h4
  obtain ⟨h1, _, h3⟩ := gen kw [] d (by simpa [Dict.keys] using hn) h
  exact ⟨by simpa [Dict.keys] using h1, h3⟩

theorem get_filter_ne (d : List (Name × X)) (t x : Name) :
    Dict.get (d.filter (fun e => decide (e.1 ≠ t))) x = if x = t then none else Dict.get d x := by
  induction d with
  | nil => simp [Dict.get]
  | cons e d ih =>
    obtain ⟨k, v⟩ := e
    rw [List.filter_cons]
    by_cases hk : k = t
    · subst hk
      simp only [ne_eq, not_true_eq_false, decide_false, Bool.false_eq_true, if_false]
      have ih' := ih
      simp only [ne_eq] at ih'
      rw [ih']
      by_cases hx : x = k
      · rw [if_pos hx, if_pos hx]
      · rw [if_neg hx, if_neg hx]
        rw [show Dict.get ((k, v) :: d) x = if k = x then some v else Dict.get d x from rfl, if_neg (Ne.symm hx)]
    · have ih' := ih
      simp only [ne_eq] at ih'
      simp only [ne_eq, hk, not_false_eq_true, decide_true, if_true]
      rw [show ∀ l : List (Name × X), Dict.get ((k, v) :: l) x = if k = x then some v else Dict.get l x from fun _ => rfl,
        show Dict.get ((k, v) :: d) x = if k = x then some v else Dict.get d x from rfl, ih']
      by_cases hkx : k = x
      · subst hkx
        rw [if_pos rfl, if_neg hk, if_pos rfl]
      · rw [if_neg hkx, if_neg hkx]

/-- **C113 (partial).**  Extensions registered in `with` blocks are gone after them, and all others are as before, with or
without exceptions, however the blocks are nested.

Missing: extensions that replace others, see the deviation. -/
theorem extensions_restored_partial (p : Prog X) : ∀ (d : List (Name × X)), p.Tame → ∀ t,
    Dict.get (run p d).2 t = Dict.get d t := by
  induction p with
  | skip => intro d _ t; rfl
  | raise => intro d _ t; rfl
  | register t x o => intro d h; cases h
  | seq p q ihp ihq =>
    intro d h t
    unfold run
    cases hr : run p d with
    | mk ok d' =>
      have hp := ihp d h.1 t
      rw [hr] at hp
      cases ok with
      | false => exact hp
      | true =>
        simp only
        rw [ihq d' h.2 t]
        exact hp
  | within tag ext o body ih =>
    intro d h t
    obtain ⟨ho, hb⟩ := h
    subst ho
    unfold run
    cases hreg : register d tag ext false with
    | none => rfl
    | some d' =>
      unfold register at hreg
      split at hreg
      · cases hreg
      · rename_i hnot
        cases hreg
        have hfresh : Dict.get d tag = none := by
          rw [Dict.get_none_iff]
          exact fun hm => hnot ⟨hm, rfl⟩
        have hbody := ih (Dict.set d tag ext) hb
        simp only
        have hin : tag ∈ Dict.keys (run body (Dict.set d tag ext)).2 := by
          rw [← Dict.get_isSome_iff, hbody, Dict.get_set_self]
          rfl
        unfold del
        rw [if_pos hin]
        simp only
        rw [get_filter_ne]
        by_cases ht : t = tag
        · rw [if_pos ht, ht, hfresh]
        · rw [if_neg ht, hbody, Dict.get_set_ne _ _ (Ne.symm ht)]

/-! ## Deviations -/

/-- **C113, deviation.**  A rule added to a configuration by a string does not see the names of its author: names are those
of the function `add_rule`, whatever they mean where the rule is written. -/
theorem rule_ignores_author {lib : Lib V} {f : Frame V} {stack : List (Frame V)} (hf : lib.addRule.Ok)
    (hb : lib.addRule.builtins ≠ []) : contextUsed lib (f :: stack) .addRule = contextOf lib.addRule := by
  have h := contextOf_ne hf hb
  simp [contextUsed, queryContext, parseContext, orElse, localContext, getCallerContext, walk, h]

/-- **C113, deviation.**  A variable of an enclosing function that the function itself does not use is not found, or another
one of its name is. -/
theorem unused_variable_not_seen {lib : Lib V} {f : Frame V} {stack : List (Frame V)} (hf : f.Ok) (hb : f.builtins ≠ [])
    (e : Entry) (he : e ≠ .addRule) {x : Name} {v : V} {d : List (Name × V)} {ds : List (List (Name × V))}
    (hl : Dict.get f.locals x = none) (hen : f.enclosing = d :: ds) (hd : Dict.get d x = some v) :
    Value f x v ∧ Dict.get (contextUsed lib (f :: stack) e) x = (Dict.get f.globals x).or (Dict.get f.builtins x) := by
  refine ⟨.enc (pre := []) hl hen (by simp) hd, ?_⟩
  rw [contextUsed_eq hf hb e he, get_contextOf hf, hl]
  rfl

/-- **C113, deviation.**  With a space after the colon, as in the documentation, no class is found. -/
theorem space_not_ignored {lib : Lib V} {f : Frame V} {stack : List (Frame V)} (hf : f.Ok) (hb : f.builtins ≠ [])
    (e : Entry) (he : e ≠ .addRule) (attr : V → Name → Option V) (x : Name) (xs : List Name) (hx : '.' ∉ x)
    (hxs : ∀ y ∈ xs, '.' ∉ y)
    (hno : ∀ y, Dict.get f.locals (' ' :: y) = none ∧ Dict.get f.globals (' ' :: y) = none ∧
      Dict.get f.builtins (' ' :: y) = none) :
    classOf attr (contextUsed lib (f :: stack) e) (' ' :: text x xs) = none := by
  have ht : ' ' :: text x xs = text (' ' :: x) xs := by
    cases xs <;> rfl
  rw [contextUsed_eq hf hb e he, ht]
  unfold classOf
  rw [splitDots_text xs (' ' :: x) (by simpa using hx) hxs]
  simp only
  rw [get_contextOf hf, (hno x).1, (hno x).2.1, (hno x).2.2]
  rfl

/-- **C113, deviation.**  A query with an empty context sees the names of its caller. -/
theorem empty_context_ignored {lib : Lib V} {f : Frame V} {stack : List (Frame V)} (hf : f.Ok) (hb : f.builtins ≠ []) :
    queryContext lib (f :: stack) (some []) = contextOf f :=
  contextUsed_eq (lib := lib) (stack := stack) hf hb .query (by simp)

/-- **C113, deviation.**  An extension that was replaced within a `with` block is not known after it. -/
theorem replaced_extension_lost (d : List (Name × X)) (t : Name) (x y : X) (_ : Dict.get d t = some x) :
    Dict.get (run (.within t y true .skip) d).2 t = none := by
  have hin : t ∈ Dict.keys (Dict.set d t y) := by
    rw [← Dict.get_isSome_iff, Dict.get_set_self]
    rfl
  have hreg : register d t y true = some (Dict.set d t y) := by
    unfold register
    rw [if_neg (by simp)]
  have hdel : del (Dict.set d t y) t = some ((Dict.set d t y).filter (fun e => decide (e.1 ≠ t))) := by
    unfold del
    rw [if_pos hin]
  simp only [run, hreg, hdel]
  rw [get_filter_ne, if_pos rfl]

end

/-! ## Concrete cases -/

/-- A frame without names of interest. -/
def plain (n : Nat) : Frame Nat := ⟨[("query".toList, n)], [], [("torch".toList, 100 + n)], [("int".toList, 7)]⟩

/-- The library. -/
def demoLib : Lib Nat := ⟨plain 1, plain 2, plain 3, plain 4, plain 5, plain 6, plain 7, plain 8, plain 9, plain 10, plain 11⟩

/-- The frame of a user who has imported `torch` (1) and defined `MyLayer` (2). -/
def user : Frame Nat := ⟨[("MyLayer".toList, 2)], [], [("torch".toList, 1)], [("int".toList, 7)]⟩

/-- `torch.nn` is 3, `torch.nn.Linear` is 4. -/
def demoAttr (v : Nat) (x : Name) : Option Nat :=
  if v = 1 ∧ x = "nn".toList then some 3 else if v = 3 ∧ x = "Linear".toList then some 4 else none

example : user.Ok := ⟨by decide, by decide, by decide⟩

example : classOf demoAttr (contextUsed demoLib [user] .search) "torch.nn.Linear".toList = some 4 := by decide +kernel
example : classOf demoAttr (contextUsed demoLib [user] .divide) "MyLayer".toList = some 2 := by decide +kernel
example : classOf demoAttr (contextUsed demoLib [user] .addRule) "MyLayer".toList = none := by decide +kernel
example : classOf demoAttr (contextUsed demoLib [user] .search) " MyLayer".toList = none := by decide +kernel

example : makeAliases (fun (d : List (Name × Nat)) raw => if raw = "&a".toList then Dict.get d "a".toList else some raw.length)
    [] [("a".toList, "xyz".toList), ("b".toList, "&a".toList)] = some [("a".toList, 3), ("b".toList, 3)] := by decide +kernel

example : (run (.within "e".toList 1 false (.seq (.within "f".toList 2 false .raise) .skip)) [("cls".toList, 0)])
    = (false, [("cls".toList, 0)]) := by decide +kernel

end FF.QueryCtx
