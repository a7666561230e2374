/-
The lookup table of quantized operators: _quantops/optable.py.

Simplifications:
* operators, python callables and qualified names are elements of arbitrary types; importing a qualified
  name is a partial function that does not change;
* an operator whose dispatch function cannot be resolved is refused before the table is touched and is
  not modelled, nor is an operator without metadata;
* lookup generators are consumed at once.
-/
import Mathlib.Data.List.Nodup

namespace FF.OpTable

set_option linter.unusedSectionVars false

variable {P N O : Type} [DecidableEq P] [DecidableEq N]

/-! ## Model -/

/-- `OperatorTable`: optable.py:91-102. -/
structure Table (P N O : Type) where
  specs : List (List O)
  index : P → Option Nat
  aliases : N → Option P

/-- An empty table. -/
def Table.empty : Table P N O := ⟨[], fun _ => none, fun _ => none⟩

/-- What does not change: imports, the qualified name of the fallback of an operator
(`operator.metadata.fallback`), and the alias extensions. -/
structure Env (P N O : Type) where
  imp : N → Option P
  fallback : O → N
  extensions : List (O → Option N)

inductive Err where
  | importError
  | valueError
  | keyError
  deriving DecidableEq, Repr

/-- `d[k] = v`. -/
def put {A B : Type} [DecidableEq A] (d : A → Option B) (k : A) (v : B) : A → Option B :=
  fun x => if x = k then some v else d x

/-- `_register_callable_alias`: optable.py:159-197. -/
def registerAlias (env : Env P N O) (t : Table P N O) (specIdx : Nat) (name : N) :
    Table P N O × Option Err :=
  match env.imp name with
  | none => (t, none)
  | some op =>
    match t.index op with
    | some existing =>
      if existing ≠ specIdx then (t, some .valueError)
      else ({ t with aliases := put t.aliases name op }, none)
    | none =>
      ({ t with index := put t.index op specIdx, aliases := put t.aliases name op }, none)

/-- The loop over aliases: optable.py:156-157. -/
def registerAliases (env : Env P N O) (specIdx : Nat) : List N → Table P N O → Table P N O × Option Err
  | [], t => (t, none)
  | n :: ns, t =>
    match registerAlias env t specIdx n with
    | (t', some e) => (t', some e)
    | (t', none) => registerAliases env specIdx ns t'

/-- The loop over alias extensions: optable.py:151-154. -/
def extend (op : O) (f : P) (exts : List (O → Option N)) (aliases : N → Option P) : N → Option P :=
  exts.foldl (fun a ext => match ext op with | some n => put a n f | none => a) aliases

/-- `append_operator`: optable.py:104-157. -/
def append (env : Env P N O) (t : Table P N O) (op : O) (names : List N) : Table P N O × Option Err :=
  match env.imp (env.fallback op) with
  | none => (t, some .importError)
  | some f =>
    match t.index f with
    | some i => registerAliases env i names { t with specs := t.specs.modify i (fun l => l ++ [op]) }
    | none =>
      let i := t.specs.length
      registerAliases env i names
        { specs := t.specs ++ [[op]], index := put t.index f i,
          aliases := extend op f env.extensions t.aliases }

/-- `add_alias` for a callable and for an alias: optable.py:373-392. -/
def addAlias (t : Table P N O) (name : N) : P ⊕ N → Table P N O × Option Err
  | .inl f => ({ t with aliases := put t.aliases name f }, none)
  | .inr n =>
    match t.aliases n with
    | none => (t, some .keyError)
    | some f => ({ t with aliases := put t.aliases name f }, none)

/-- `get` for a callable; `none` is `KeyError`: optable.py:315-351. -/
def get (t : Table P N O) (f : P) : Option (List O) :=
  match t.index f with
  | none => none
  | some i => match t.specs[i]? with
    | none => none
    | some l => some l.reverse

/-- `get` for a string: optable.py:339-342, 366-371. -/
def getName (t : Table P N O) (n : N) : Option (List O) :=
  match t.aliases n with
  | none => none
  | some f => get t f

/-- A use of the table.  Errors are raised to the user, who goes on. -/
inductive Event (P N O : Type) where
  | append (op : O) (names : List N)
  | addAlias (name : N) (target : P ⊕ N)

/-- One use. -/
def step (env : Env P N O) (t : Table P N O) : Event P N O → Table P N O
  | .append op names => (append env t op names).1
  | .addAlias name target => (addAlias t name target).1

/-- A history of uses. -/
def run (env : Env P N O) (t : Table P N O) (es : List (Event P N O)) : Table P N O :=
  es.foldl (step env) t

/-! ## Specification -/

/-- What a history establishes: for each callable the callable that stands for its overload set, and
the operators registered so far, each with the overload set it belongs to. -/
structure Book (P O : Type) where
  owner : P → Option P
  log : List (P × O)

/-- Callable `c` joins the overload set of `r` if it has none yet. -/
def Book.join (b : Book P O) (r c : P) : Book P O :=
  if b.owner c = none then { b with owner := put b.owner c r } else b

/-- The aliases join until one of them belongs elsewhere. -/
def Book.joinAll (env : Env P N O) (r : P) : List N → Book P O → Book P O
  | [], b => b
  | n :: ns, b =>
    match env.imp n with
    | none => Book.joinAll env r ns b
    | some c =>
      let b' := b.join r c
      if b'.owner c = some r then Book.joinAll env r ns b' else b'

/-- Effect of a use. -/
def Book.step (env : Env P N O) (b : Book P O) : Event P N O → Book P O
  | .addAlias _ _ => b
  | .append op names =>
    match env.imp (env.fallback op) with
    | none => b
    | some f =>
      let b' := b.join f f
      match b'.owner f with
      | none => b'
      | some r => Book.joinAll env r names { b' with log := b'.log ++ [(r, op)] }

/-- The book of a history. -/
def book (env : Env P N O) (es : List (Event P N O)) : Book P O :=
  es.foldl (Book.step env) ⟨fun _ => none, []⟩

/-- The operators of the overload set of `f`, newest first. -/
def Book.lookup (b : Book P O) (f : P) : Option (List O) :=
  match b.owner f with
  | none => none
  | some r => some ((b.log.reverse.filter (fun e => e.1 = r)).map Prod.snd)

/-- The history registers something under `f`. -/
def Mentions (env : Env P N O) (f : P) : Event P N O → Prop
  | .addAlias _ _ => False
  | .append op names => env.imp (env.fallback op) = some f ∨
      ((∃ g, env.imp (env.fallback op) = some g) ∧ ∃ n ∈ names, env.imp n = some f)

/-! ## Lemmas -/

/-- The table represents the book; `reps` are the callables standing for the entries. -/
structure Rep (t : Table P N O) (b : Book P O) (reps : List P) : Prop where
  len : t.specs.length = reps.length
  nodup : reps.Nodup
  idx : ∀ p (i : Nat), t.index p = some i ↔ ∃ r, b.owner p = some r ∧ reps[i]? = some r
  known : ∀ p r, b.owner p = some r → r ∈ reps
  self : ∀ r ∈ reps, b.owner r = some r
  spec : ∀ (i : Nat) r, reps[i]? = some r → t.specs[i]? = some ((b.log.filter (fun e => e.1 = r)).map Prod.snd)
  logged : ∀ e ∈ b.log, e.1 ∈ reps

theorem Rep.get_eq {t : Table P N O} {b : Book P O} {reps : List P} (h : Rep t b reps) (f : P) :
    get t f = b.lookup f := by
  unfold get Book.lookup
  cases ho : b.owner f with
  | none =>
    cases hi : t.index f with
    | none => rfl
    | some i =>
      obtain ⟨r, hr, _⟩ := (h.idx f i).1 hi
      rw [ho] at hr
      cases hr
  | some r =>
    obtain ⟨i, hi⟩ := List.mem_iff_getElem?.1 (h.known f r ho)
    rw [(h.idx f i).2 ⟨r, ho, hi⟩]
    simp only [h.spec i r hi]
    rw [← List.map_reverse, ← List.filter_reverse]

theorem Rep.index_none {t : Table P N O} {b : Book P O} {reps : List P} (h : Rep t b reps) {f : P}
    (ho : b.owner f = none) : t.index f = none := by
  cases hi : t.index f with
  | none => rfl
  | some i =>
    obtain ⟨r, hr, _⟩ := (h.idx f i).1 hi
    rw [ho] at hr
    cases hr

theorem Rep.index_some {t : Table P N O} {b : Book P O} {reps : List P} (h : Rep t b reps) {f r : P}
    {i : Nat} (ho : b.owner f = some r) (hi : reps[i]? = some r) : t.index f = some i :=
  (h.idx f i).2 ⟨r, ho, hi⟩

theorem getElem?_inj_of_nodup {α : Type} {l : List α} (h : l.Nodup) {i j : Nat} {x : α}
    (hi : l[i]? = some x) (hj : l[j]? = some x) : i = j := by
  obtain ⟨h1, e1⟩ := List.getElem?_eq_some_iff.1 hi
  obtain ⟨h2, e2⟩ := List.getElem?_eq_some_iff.1 hj
  exact (h.getElem_inj_iff).1 (e1.trans e2.symm)

/-- Aliases leave the specs alone and keep the correspondence. -/
theorem rep_joinAll (env : Env P N O) {reps : List P} {r : P} {i : Nat} (hi : reps[i]? = some r) :
    ∀ (ns : List N) (t : Table P N O) (b : Book P O), Rep t b reps →
    Rep (registerAliases env i ns t).1 (Book.joinAll env r ns b) reps
  | [], t, b, h => h
  | n :: ns, t, b, h => by
    unfold registerAliases registerAlias Book.joinAll
    cases hn : env.imp n with
    | none => exact rep_joinAll env hi ns t b h
    | some c =>
      dsimp only
      cases ho : b.owner c with
      | none =>
        have hjoin : b.join r c = { b with owner := put b.owner c r } := by
          unfold Book.join
          rw [if_pos ho]
        rw [h.index_none ho, hjoin]
        have hown : (put b.owner c r) c = some r := by simp [put]
        simp only [hown, if_true]
        apply rep_joinAll env hi ns
        refine ⟨h.len, h.nodup, ?_, ?_, ?_, h.spec, h.logged⟩
        · intro p j
          unfold put
          dsimp only
          by_cases hp : p = c
          · subst hp
            simp only [if_true, Option.some.injEq]
            constructor
            · rintro rfl
              exact ⟨r, rfl, hi⟩
            · rintro ⟨r', hr', hj⟩
              subst hr'
              exact getElem?_inj_of_nodup h.nodup hi hj
          · rw [if_neg hp, if_neg hp]
            exact h.idx p j
        · intro p r'
          unfold put
          dsimp only
          by_cases hp : p = c
          · subst hp
            simp only [if_true, Option.some.injEq]
            rintro rfl
            exact List.mem_of_getElem? hi
          · rw [if_neg hp]
            exact h.known p r'
        · intro r' hr'
          unfold put
          dsimp only
          by_cases hp : r' = c
          · subst hp
            rw [h.self r' hr'] at ho
            cases ho
          · rw [if_neg hp]
            exact h.self r' hr'
      | some r' =>
        have hjoin : b.join r c = b := by
          unfold Book.join
          rw [if_neg (by rw [ho]; simp)]
        rw [hjoin]
        obtain ⟨j, hj⟩ := List.mem_iff_getElem?.1 (h.known c r' ho)
        rw [h.index_some ho hj]
        by_cases hr : r' = r
        · subst hr
          have : j = i := getElem?_inj_of_nodup h.nodup hj hi
          subst this
          simp only [ne_eq, not_true_eq_false, if_false, ho, if_true]
          exact rep_joinAll env hi ns _ b ⟨h.len, h.nodup, h.idx, h.known, h.self, h.spec, h.logged⟩
        · have hji : j ≠ i := by
            rintro rfl
            rw [hi] at hj
            cases hj
            exact hr rfl
          simp only [ne_eq, hji, not_false_eq_true, if_true, ho, Option.some.injEq, hr, if_false]
          exact h

theorem rep_step (env : Env P N O) {t : Table P N O} {b : Book P O} {reps : List P} (h : Rep t b reps)
    (e : Event P N O) : ∃ reps', Rep (step env t e) (Book.step env b e) reps' := by
  cases e with
  | addAlias n target =>
    refine ⟨reps, ?_⟩
    unfold step addAlias Book.step
    cases target with
    | inl f => exact ⟨h.len, h.nodup, h.idx, h.known, h.self, h.spec, h.logged⟩
    | inr m =>
      dsimp only
      cases t.aliases m with
      | none => exact h
      | some f => exact ⟨h.len, h.nodup, h.idx, h.known, h.self, h.spec, h.logged⟩
  | append op names =>
    unfold step append Book.step
    dsimp only
    cases hf : env.imp (env.fallback op) with
    | none => exact ⟨reps, h⟩
    | some f =>
      dsimp only
      cases ho : b.owner f with
      | none =>
        have hjoin : b.join f f = { b with owner := put b.owner f f } := by
          unfold Book.join
          rw [if_pos ho]
        have hown : (put b.owner f f) f = some f := by simp [put]
        rw [h.index_none ho, hjoin]
        simp only [hown]
        have hfr : f ∉ reps := fun hc => by
          rw [h.self f hc] at ho
          cases ho
        have hlast : (reps ++ [f])[t.specs.length]? = some f := by
          rw [h.len, List.getElem?_concat_length]
        refine ⟨reps ++ [f], rep_joinAll env hlast names _ _ ?_⟩
        refine ⟨by simp [h.len], ?_, ?_, ?_, ?_, ?_, ?_⟩
        · rw [List.nodup_append]
          refine ⟨h.nodup, by simp, ?_⟩
          intro x hx y hy hxy
          rw [List.mem_singleton] at hy
          subst hy
          subst hxy
          exact hfr hx
        · intro p i
          unfold put
          dsimp only
          by_cases hp : p = f
          · subst hp
            simp only [if_true, Option.some.injEq]
            constructor
            · rintro rfl
              exact ⟨p, rfl, hlast⟩
            · rintro ⟨r, hr, hi⟩
              subst hr
              have hnd : (reps ++ [p]).Nodup := by
                rw [List.nodup_append]
                refine ⟨h.nodup, by simp, ?_⟩
                intro x hx y hy hxy
                rw [List.mem_singleton] at hy
                subst hy
                subst hxy
                exact hfr hx
              exact getElem?_inj_of_nodup hnd hlast hi
          · rw [if_neg hp, if_neg hp, h.idx p i]
            constructor
            · rintro ⟨r, hr, hi⟩
              refine ⟨r, hr, ?_⟩
              rw [List.getElem?_append_left (List.getElem?_eq_some_iff.1 hi).1]
              exact hi
            · rintro ⟨r, hr, hi⟩
              refine ⟨r, hr, ?_⟩
              have hmem := h.known p r hr
              obtain ⟨j, hj⟩ := List.mem_iff_getElem?.1 hmem
              have hne : r ≠ f := fun hc => hfr (hc ▸ hmem)
              rw [List.getElem?_append] at hi
              split at hi
              · exact hi
              · rename_i hlt
                have : i - reps.length = 0 := by
                  by_contra hc
                  rw [List.getElem?_eq_none (by simp; omega)] at hi
                  cases hi
                rw [this] at hi
                simp at hi
                exact absurd hi.symm hne
        · intro p r
          unfold put
          dsimp only
          by_cases hp : p = f
          · subst hp
            simp only [if_true, Option.some.injEq]
            rintro rfl
            simp
          · rw [if_neg hp]
            intro hr
            exact List.mem_append_left _ (h.known p r hr)
        · intro r hr
          unfold put
          dsimp only
          by_cases hp : r = f
          · rw [if_pos hp, hp]
          · rw [if_neg hp]
            rcases List.mem_append.1 hr with hr | hr
            · exact h.self r hr
            · rw [List.mem_singleton] at hr
              exact absurd hr hp
        · intro i r hi
          dsimp only
          have hfresh : b.log.filter (fun e => decide (e.1 = f)) = [] := by
            rw [List.filter_eq_nil_iff]
            intro e he
            simp only [decide_eq_true_eq]
            intro hc
            exact hfr (hc ▸ h.logged e he)
          rw [List.filter_append]
          rw [List.getElem?_append] at hi
          split at hi
          · rename_i hlt
            rw [List.getElem?_append_left (by rw [h.len]; exact hlt), h.spec i r hi]
            have hne : f ≠ r := fun hc => hfr (hc ▸ List.mem_of_getElem? hi)
            simp [hne]
          · rename_i hlt
            have hz : i - reps.length = 0 := by
              by_contra hc
              rw [List.getElem?_eq_none (by simp; omega)] at hi
              cases hi
            rw [hz] at hi
            simp at hi
            subst hi
            have : i = t.specs.length := by rw [h.len]; omega
            subst this
            rw [List.getElem?_concat_length, hfresh]
            simp
        · intro e he
          dsimp only at he
          rcases List.mem_append.1 he with he | he
          · exact List.mem_append_left _ (h.logged e he)
          · rw [List.mem_singleton] at he
            subst he
            simp
      | some r =>
        have hjoin : b.join f f = b := by
          unfold Book.join
          rw [if_neg (by rw [ho]; simp)]
        rw [hjoin]
        simp only [ho]
        obtain ⟨i, hi⟩ := List.mem_iff_getElem?.1 (h.known f r ho)
        rw [h.index_some ho hi]
        refine ⟨reps, rep_joinAll env hi names _ _ ?_⟩
        refine ⟨by simp [h.len], h.nodup, h.idx, h.known, h.self, ?_, ?_⟩
        · intro j r' hj
          dsimp only
          rw [List.getElem?_modify, h.spec j r' hj, List.filter_append]
          by_cases hij : i = j
          · subst hij
            rw [hi] at hj
            cases hj
            simp
          · have hne : r ≠ r' := fun hc => by
              subst hc
              exact hij (getElem?_inj_of_nodup h.nodup hi hj)
            simp [hij, hne]
        · intro e he
          dsimp only at he
          rcases List.mem_append.1 he with he | he
          · exact h.logged e he
          · rw [List.mem_singleton] at he
            subst he
            exact h.known f r ho

theorem rep_run (env : Env P N O) : ∀ (es : List (Event P N O)) (t : Table P N O) (b : Book P O)
    (reps : List P), Rep t b reps → ∃ reps', Rep (run env t es) (es.foldl (Book.step env) b) reps'
  | [], _, _, reps, h => ⟨reps, h⟩
  | e :: es, t, b, reps, h => by
    obtain ⟨reps', h'⟩ := rep_step env h e
    exact rep_run env es _ _ _ h'

theorem rep_empty : Rep (Table.empty : Table P N O) ⟨fun _ => none, []⟩ [] :=
  ⟨rfl, List.nodup_nil, by simp [Table.empty], by simp, by simp, by simp, by simp⟩

theorem rep_history (env : Env P N O) (es : List (Event P N O)) :
    ∃ reps, Rep (run env Table.empty es) (book env es) reps :=
  rep_run env es _ _ _ rep_empty

theorem join_owner {b : Book P O} {r c p q : P} (h : b.owner p = some q) :
    (b.join r c).owner p = some q := by
  unfold Book.join
  split
  · rename_i hc
    dsimp only [put]
    split
    · rename_i hp
      subst hp
      rw [hc] at h
      cases h
    · exact h
  · exact h

theorem joinAll_owner (env : Env P N O) {r p q : P} : ∀ (ns : List N) (b : Book P O),
    b.owner p = some q → (Book.joinAll env r ns b).owner p = some q
  | [], _, h => h
  | n :: ns, b, h => by
    unfold Book.joinAll
    cases env.imp n with
    | none => exact joinAll_owner env ns b h
    | some c =>
      dsimp only
      split
      · exact joinAll_owner env ns _ (join_owner h)
      · exact join_owner h

theorem step_owner (env : Env P N O) {b : Book P O} {p q : P} (h : b.owner p = some q)
    (e : Event P N O) : (Book.step env b e).owner p = some q := by
  cases e with
  | addAlias n target => exact h
  | append op names =>
    unfold Book.step
    dsimp only
    split
    · exact h
    · split
      · exact join_owner h
      · exact joinAll_owner env names _ (join_owner h)

theorem joinAll_new (env : Env P N O) {r p : P} : ∀ (ns : List N) (b : Book P O),
    b.owner p = none → (Book.joinAll env r ns b).owner p ≠ none → ∃ n ∈ ns, env.imp n = some p
  | [], b, h, h' => absurd h h'
  | n :: ns, b, h, h' => by
    unfold Book.joinAll at h'
    cases hn : env.imp n with
    | none =>
      rw [hn] at h'
      obtain ⟨m, hm, e⟩ := joinAll_new env ns b h h'
      exact ⟨m, List.mem_cons_of_mem _ hm, e⟩
    | some c =>
      rw [hn] at h'
      dsimp only at h'
      by_cases hcp : c = p
      · exact ⟨n, List.mem_cons_self, by rw [hn, hcp]⟩
      · have hj : (b.join r c).owner p = none := by
          unfold Book.join
          split
          · dsimp only [put]
            rw [if_neg (fun e => hcp e.symm)]
            exact h
          · exact h
        split at h'
        · obtain ⟨m, hm, e⟩ := joinAll_new env ns _ hj h'
          exact ⟨m, List.mem_cons_of_mem _ hm, e⟩
        · exact absurd hj h'

theorem step_new (env : Env P N O) {b : Book P O} {p : P} (h : b.owner p = none) (e : Event P N O)
    (h' : (Book.step env b e).owner p ≠ none) : Mentions env p e := by
  cases e with
  | addAlias n target => exact absurd h h'
  | append op names =>
    unfold Book.step at h'
    unfold Mentions
    dsimp only at h' ⊢
    cases hf : env.imp (env.fallback op) with
    | none =>
      rw [hf] at h'
      exact absurd h h'
    | some f =>
      rw [hf] at h'
      dsimp only at h'
      by_cases hfp : f = p
      · left
        rw [hfp]
      · right
        refine ⟨⟨f, rfl⟩, ?_⟩
        have hj : (b.join f f).owner p = none := by
          unfold Book.join
          split
          · dsimp only [put]
            rw [if_neg (fun e => hfp e.symm)]
            exact h
          · exact h
        cases hr : (b.join f f).owner f with
        | none =>
          rw [hr] at h'
          exact absurd hj h'
        | some r =>
          rw [hr] at h'
          exact joinAll_new env names ⟨(b.join f f).owner, (b.join f f).log ++ [(r, op)]⟩ hj h'

/-! ## Properties -/

/-- **C48.**  For every history, looking up a callable gives all operators registered for its overload
set, the most recent one first, or `KeyError` if it has none. -/
theorem lookup_newest_first (env : Env P N O) (es : List (Event P N O)) (f : P) :
    get (run env Table.empty es) f = (book env es).lookup f := by
  obtain ⟨_, h⟩ := rep_history env es
  exact h.get_eq f

/-- **C48.**  A callable that nothing was registered under is not found. -/
theorem lookup_never_guesses (env : Env P N O) (es : List (Event P N O)) (f : P)
    (h : ∀ e ∈ es, ¬ Mentions env f e) : get (run env Table.empty es) f = none := by
  rw [lookup_newest_first]
  have hnone : ∀ (es : List (Event P N O)) (b : Book P O), b.owner f = none →
      (∀ e ∈ es, ¬ Mentions env f e) → (es.foldl (Book.step env) b).owner f = none := by
    intro es
    induction es with
    | nil => intro b hb _; exact hb
    | cons e es ih =>
      intro b hb h
      refine ih _ ?_ (fun e he => h e (List.mem_cons_of_mem _ he))
      by_contra hc
      exact h e List.mem_cons_self (step_new env hb e hc)
  unfold Book.lookup
  rw [show (book env es).owner f = none from hnone es _ rfl h]

/-- **C48.**  Right after an operator was added, also if one of its aliases was refused, a lookup of its
fallback returns it, followed by what the lookup gave before. -/
theorem added_operator_first (env : Env P N O) (es : List (Event P N O)) (op : O) (names : List N) (f : P)
    (hf : env.imp (env.fallback op) = some f) :
    get (run env Table.empty (es ++ [.append op names])) f =
      some (op :: (get (run env Table.empty es) f).getD []) := by
  rw [lookup_newest_first, lookup_newest_first]
  have hb : book env (es ++ [.append op names]) = Book.step env (book env es) (.append op names) := by
    simp [book]
  rw [hb]
  obtain ⟨reps, hrep⟩ := rep_history env es
  generalize book env es = b at hrep
  have hlog : ∀ (ns : List N) (r : P) (b : Book P O), (Book.joinAll env r ns b).log = b.log := by
    intro ns r
    induction ns with
    | nil => intro b; rfl
    | cons n ns ih =>
      intro b
      unfold Book.joinAll
      have hjl : ∀ c, (b.join r c).log = b.log := by
        intro c
        unfold Book.join
        split <;> rfl
      cases env.imp n with
      | none => exact ih b
      | some c =>
        dsimp only
        split
        · rw [ih, hjl]
        · exact hjl c
  unfold Book.step
  dsimp only
  rw [hf]
  dsimp only
  cases ho : b.owner f with
  | none =>
    have hjoin : b.join f f = { b with owner := put b.owner f f } := by
      unfold Book.join
      rw [if_pos ho]
    have hown : (put b.owner f f) f = some f := by simp [put]
    rw [hjoin]
    simp only [hown]
    have hfresh : b.log.reverse.filter (fun e => decide (e.1 = f)) = [] := by
      rw [List.filter_eq_nil_iff]
      intro e he
      simp only [decide_eq_true_eq]
      intro hc
      have := hrep.self _ (hrep.logged e (List.mem_reverse.1 he))
      rw [hc, ho] at this
      cases this
    unfold Book.lookup
    rw [joinAll_owner env names _ (q := f) hown, hlog, ho]
    simp [hfresh]
  | some r =>
    have hjoin : b.join f f = b := by
      unfold Book.join
      rw [if_neg (by rw [ho]; simp)]
    rw [hjoin]
    simp only [ho]
    unfold Book.lookup
    rw [joinAll_owner env names ⟨b.owner, b.log ++ [(r, op)]⟩ (q := r) ho, hlog, ho]
    simp

/-- **C48.**  No later use of the table moves a callable to another overload set. -/
theorem callable_owner_permanent (env : Env P N O) (es es' : List (Event P N O)) {f r : P}
    (h : (book env es).owner f = some r) : (book env (es ++ es')).owner f = some r := by
  unfold book
  rw [List.foldl_append]
  show (es'.foldl (Book.step env) (book env es)).owner f = some r
  generalize book env es = b at h
  induction es' generalizing b with
  | nil => exact h
  | cons e es' ih => exact ih _ (step_owner env h e)

/-- **C48.**  An alias that belongs to another overload set is refused, and still leads to its old one. -/
theorem alias_collision_refused (env : Env P N O) (es : List (Event P N O)) (op : O) (name : N)
    (f c r r' : P) (hf : env.imp (env.fallback op) = some f) (hc : env.imp name = some c)
    (hr : (book env es).owner f = some r) (hr' : (book env es).owner c = some r') (hne : r ≠ r') :
    (append env (run env Table.empty es) op [name]).2 = some .valueError ∧
      get (append env (run env Table.empty es) op [name]).1 c = get (run env Table.empty es) c := by
  obtain ⟨reps, h⟩ := rep_history env es
  generalize run env Table.empty es = t at h
  generalize book env es = b at h hr hr'
  obtain ⟨i, hi⟩ := List.mem_iff_getElem?.1 (h.known f r hr)
  obtain ⟨j, hj⟩ := List.mem_iff_getElem?.1 (h.known c r' hr')
  have hij : j ≠ i := by
    rintro rfl
    rw [hi] at hj
    cases hj
    exact hne rfl
  unfold append
  rw [hf]
  dsimp only
  rw [h.index_some hr hi]
  dsimp only
  unfold registerAliases registerAlias
  rw [hc]
  dsimp only
  rw [h.index_some hr' hj]
  dsimp only
  rw [if_pos hij]
  refine ⟨rfl, ?_⟩
  dsimp only
  unfold get
  dsimp only
  rw [h.index_some hr' hj]
  dsimp only
  rw [List.getElem?_modify]
  cases t.specs[j]? with
  | none => rfl
  | some l =>
    show some (if i = j then l ++ [op] else l).reverse = _
    rw [if_neg (fun e => hij e.symm)]

/-- **C48.**  With the alias extension for fallback names, an operator whose fallback was not known before is
found under the name of its fallback. -/
theorem found_by_fallback_name (env : Env P N O) (es : List (Event P N O)) (op : O) (f : P)
    (hext : env.extensions = [fun o => some (env.fallback o)])
    (hf : env.imp (env.fallback op) = some f) (hnew : get (run env Table.empty es) f = none) :
    getName (run env Table.empty (es ++ [.append op []])) (env.fallback op) = some [op] := by
  have h1 := added_operator_first env es op [] f hf
  rw [hnew] at h1
  have hidx : (run env Table.empty es).index f = none := by
    obtain ⟨reps, h⟩ := rep_history env es
    rw [h.get_eq] at hnew
    unfold Book.lookup at hnew
    apply h.index_none
    cases ho : (book env es).owner f with
    | none => rfl
    | some r =>
      rw [ho] at hnew
      cases hnew
  have hal : (run env Table.empty (es ++ [.append op []])).aliases (env.fallback op) = some f := by
    unfold run
    rw [List.foldl_append]
    show (step env (run env Table.empty es) (.append op [])).aliases (env.fallback op) = some f
    unfold step append
    dsimp only
    rw [hf]
    dsimp only
    rw [hidx]
    dsimp only
    unfold registerAliases extend
    rw [hext]
    simp [put]
  unfold getName
  rw [hal]
  exact h1

/-- **C48, deviation.**  A string alias can silently change its owner: `add_alias` with the name of a
registered operator redirects lookups of that name. -/
theorem name_alias_redirected (t : Table P N O) (name : N) (g : P) :
    (addAlias t name (.inl g)).2 = none ∧ getName (addAlias t name (.inl g)).1 name = get t g := by
  refine ⟨rfl, ?_⟩
  unfold addAlias getName
  simp only [put, if_true]
  rfl

/-- **C48, deviation.**  Adding an operator that fails because of an alias still adds the operator. -/
theorem failed_add_takes_effect (env : Env P N O) (es : List (Event P N O)) (op : O) (name : N)
    (f c r r' : P) (hf : env.imp (env.fallback op) = some f) (hc : env.imp name = some c)
    (hr : (book env es).owner f = some r) (hr' : (book env es).owner c = some r') (hne : r ≠ r') :
    (append env (run env Table.empty es) op [name]).2 = some .valueError ∧
      get (append env (run env Table.empty es) op [name]).1 f =
        some (op :: (get (run env Table.empty es) f).getD []) := by
  refine ⟨(alias_collision_refused env es op name f c r r' hf hc hr hr' hne).1, ?_⟩
  have := added_operator_first env es op [name] f hf
  rw [← this]
  unfold run
  rw [List.foldl_append]
  rfl

/-- **C48, deviation.**  An operator registered under a second name of a known callable is not found under
that name. -/
theorem second_fallback_name_unknown (env : Env P N O) (es : List (Event P N O)) (op : O) (f : P)
    (hf : env.imp (env.fallback op) = some f) (hold : (get (run env Table.empty es) f).isSome)
    (hn : (run env Table.empty es).aliases (env.fallback op) = none) :
    getName (run env Table.empty (es ++ [.append op []])) (env.fallback op) = none := by
  have hal : (run env Table.empty (es ++ [.append op []])).aliases (env.fallback op) = none := by
    unfold run
    rw [List.foldl_append]
    show (step env (run env Table.empty es) (.append op [])).aliases (env.fallback op) = none
    unfold step append
    dsimp only
    rw [hf]
    dsimp only
    cases hi : (run env Table.empty es).index f with
    | none =>
      unfold get at hold
      rw [hi] at hold
      cases hold
    | some i => exact hn
  unfold getName
  rw [hal]

/-! ## Concrete cases -/

/-- Names 0 and 1 import to callables 0 and 1, name 2 also to callable 1, name 3 fails to import.  The
fallback name of an operator is its last digit. -/
def env : Env Nat Nat Nat :=
  ⟨fun n => match n with | 0 => some 0 | 1 => some 1 | 2 => some 1 | _ => none, fun o => o % 10,
   [fun o => some (o % 10)]⟩

/-- Two overloads of callable 0, callable 1 as its alias, then an operator for callable 1. -/
def history : List (Event Nat Nat Nat) :=
  [.append 10 [], .append 20 [3, 1], .append 31 [], .addAlias 7 (.inr 0)]

example : get (run env Table.empty history) 0 = some [31, 20, 10] ∧
    get (run env Table.empty history) 1 = some [31, 20, 10] ∧
    getName (run env Table.empty history) 7 = some [31, 20, 10] ∧
    get (run env Table.empty history) 2 = none := by decide

/-- Both callables registered on their own: the alias is refused. -/
example : (book env [.append 10 [], .append 11 []]).owner 0 = some 0 ∧
    (book env [.append 10 [], .append 11 []]).owner 1 = some 1 ∧
    (append env (run env Table.empty [.append 10 [], .append 11 []]) 20 [1]).2 = some .valueError := by
  decide

/-- Name 2 is a second name of callable 1. -/
example : (run env Table.empty [.append 11 []]).aliases 2 = none ∧
    (get (run env Table.empty [.append 11 []]) 1).isSome ∧
    getName (run env Table.empty ([.append 11 []] ++ [.append 12 []])) 2 = none := by decide

end FF.OpTable
