/-
Binding of call arguments to operator signatures: _quantops/operator.py.

Simplifications:
* names, defaults and argument values are elements of arbitrary types; parameter types are reduced to
  whether the operator returns a quantized tensor;
* the generator `_bind_partial` is consumed completely, as all its callers do.
-/
import Mathlib.Data.List.Nodup
import Mathlib.Data.List.Dedup
import Mathlib.Data.List.Perm.Subperm

set_option linter.unusedSectionVars false

namespace FF.Operator

variable {N D V : Type} [DecidableEq N]

/-! ## Model -/

/-- `Parameter`: operator.py:23-31. -/
structure Param (N D : Type) where
  name : N
  default : Option D

/-- The parts of `Operator` that binding uses: operator.py:43-68. -/
structure Op (N D : Type) where
  parameters : List (Param N D)
  returnsQuantized : Bool
  intermediates : List N

/-- `params[p.name] = p` for a dictionary in insertion order. -/
def insert (d : List (Param N D)) (p : Param N D) : List (Param N D) :=
  if d.any (fun q => q.name = p.name) then d.map (fun q => if q.name = p.name then p else q)
  else d ++ [p]

/-- The dictionary of parameters: operator.py:174-190.  `strict` and `output` are the names
`"strict_quantization"` and `"output_quantizer"`, `dflt` is the default value `"None"`. -/
def signature (strict output : N) (dflt : D) (op : Op N D) (quantizationParams : Bool) :
    List (Param N D) :=
  let d0 : List (Param N D) :=
    if quantizationParams then
      let d1 := insert [] ⟨strict, some dflt⟩
      let d2 := if op.returnsQuantized then insert d1 ⟨output, some dflt⟩ else d1
      op.intermediates.foldl (fun d i => insert d ⟨i, some dflt⟩) d2
    else []
  op.parameters.reverse.foldl insert d0

inductive Err where
  | tooMany
  | unexpected
  | multiple
  | keyError
  deriving DecidableEq, Repr

/-- The loop over positional arguments: operator.py:199-201. -/
def bindPositional : List V → List (Param N D) → List (Param N D × V) →
    Except Err (List (Param N D) × List (Param N D × V))
  | [], d, bound => .ok (d, bound)
  | a :: args, d, bound =>
    match d.getLast? with
    | none => .error .keyError
    | some p => bindPositional args d.dropLast (bound ++ [(p, a)])

/-- The loop over keyword arguments: operator.py:202-210. -/
def bindKeywords (known : List N) : List (N × V) → List (Param N D) → List (Param N D × V) →
    Except Err (List (Param N D × V))
  | [], _, bound => .ok bound
  | (k, a) :: kw, d, bound =>
    if k ∉ known then .error .unexpected
    else match d.find? (fun p => p.name = k) with
      | none => .error .multiple
      | some p => bindKeywords known kw (d.filter (fun q => q.name ≠ k)) (bound ++ [(p, a)])

/-- `_bind_partial` for a given dictionary of parameters: operator.py:191-212. -/
def bind (d : List (Param N D)) (args : List V) (kw : List (N × V)) :
    Except Err (List (Param N D × V)) :=
  if d.length < args.length + kw.length then .error .tooMany
  else
    match bindPositional args d [] with
    | .error e => .error e
    | .ok (d', bound) => bindKeywords (d.map (·.name)) kw d' bound

/-- `bind_partial`: operator.py:141-142. -/
def bindPartial (strict output : N) (dflt : D) (op : Op N D) (args : List V) (kw : List (N × V)) :
    Except Err (List (Param N D × V)) :=
  bind (signature strict output dflt op true) args kw

/-- `validate_arguments`: operator.py:214-241. -/
def validate (strict output : N) (dflt : D) (op : Op N D) (args : List V) (kw : List (N × V)) : Bool :=
  match bind (signature strict output dflt op false) args kw with
  | .error _ => false
  | .ok bound =>
    let names := (bound.map (fun b => b.1.name)).dedup
    if names.length ≠ args.length + kw.length then false
    else op.parameters.all (fun p => !(p.name ∉ names && p.default.isNone))

/-- The order of parameters `from_spec` makes of the positional-only, ordinary and keyword-only
parameters of a signature: operator.py:101-103. -/
def fromSpec (posonly params kwonly : List (Param N D)) : List (Param N D) :=
  params ++ kwonly ++ posonly

/-! ## Specification -/

/-- When Python accepts a call of a function with ordinary parameters. -/
inductive Accepts : List (Param N D) → List V → List (N × V) → Prop
  /-- nothing left to bind -/
  | done : Accepts [] [] []
  /-- the next positional argument goes to the next parameter, which may not be given again -/
  | positional {p ps a args kw} : p.name ∉ kw.map Prod.fst → Accepts ps args kw →
      Accepts (p :: ps) (a :: args) kw
  /-- without positional arguments left, the parameter is given by keyword -/
  | keyword {p ps kw} {v : V} : (p.name, v) ∈ kw →
      Accepts ps [] (kw.filter (fun e => e.1 ≠ p.name)) → Accepts (p :: ps) [] kw
  /-- or has a default -/
  | default {p ps kw} : p.default ≠ none → p.name ∉ kw.map Prod.fst → Accepts ps [] kw →
      Accepts (p :: ps) [] kw

/-! ## Lemmas -/

/-- Which calls are accepted, in terms of positions. -/
theorem accepts_iff : ∀ (ps : List (Param N D)) (args : List V) (kw : List (N × V)),
    (ps.map (·.name)).Nodup → (kw.map Prod.fst).Nodup →
    (Accepts ps args kw ↔ args.length ≤ ps.length ∧
      (∀ k ∈ kw.map Prod.fst, k ∈ (ps.drop args.length).map (·.name)) ∧
      ∀ p ∈ ps.drop args.length, p.default = none → p.name ∈ kw.map Prod.fst)
  | [], args, kw, _, _ => by
    constructor
    · intro h
      cases h
      simp
    · rintro ⟨h1, h2, _⟩
      have ha : args = [] := List.eq_nil_of_length_eq_zero (by simpa using h1)
      subst ha
      cases kw with
      | nil => exact .done
      | cons e kw => simpa using h2 e.1 (by simp)
  | p :: ps, args, kw, hp, hk => by
    rw [List.map_cons, List.nodup_cons] at hp
    cases args with
    | cons a args =>
      have ih := accepts_iff ps args kw hp.2 hk
      simp only [List.length_cons, List.drop_succ_cons, Nat.add_le_add_iff_right]
      constructor
      · intro h
        cases h with
        | positional hn h => exact ih.1 h
      · intro h
        refine .positional ?_ (ih.2 h)
        intro hc
        have := h.2.1 _ hc
        obtain ⟨q, hq, he⟩ := List.mem_map.1 this
        exact hp.1 (List.mem_map.2 ⟨q, List.mem_of_mem_drop hq, he⟩)
    | nil =>
      simp only [List.length_nil, List.drop_zero, Nat.zero_le, true_and]
      constructor
      · intro h
        cases h with
        | @keyword _ _ _ v hv h =>
          have hk' : ((kw.filter (fun e => e.1 ≠ p.name)).map Prod.fst).Nodup :=
            hk.sublist (List.filter_sublist.map _)
          obtain ⟨_, h2, h3⟩ := (accepts_iff ps [] _ hp.2 hk').1 h
          simp only [List.length_nil, List.drop_zero] at h2 h3
          refine ⟨?_, ?_⟩
          · intro k hkk
            by_cases hkp : k = p.name
            · simp [hkp]
            · obtain ⟨e, he, hek⟩ := List.mem_map.1 hkk
              have := h2 k (List.mem_map.2 ⟨e, List.mem_filter.2 ⟨he, by
                simp only [ne_eq, decide_eq_true_eq]
                rw [hek]
                exact hkp⟩, hek⟩)
              exact List.mem_cons_of_mem _ this
          · intro q hq hd
            rcases List.mem_cons.1 hq with rfl | hq
            · exact List.mem_map.2 ⟨_, hv, rfl⟩
            · obtain ⟨e, he, hee⟩ := List.mem_map.1 (h3 q hq hd)
              exact List.mem_map.2 ⟨e, (List.mem_filter.1 he).1, hee⟩
        | default hd hn h =>
          obtain ⟨_, h2, h3⟩ := (accepts_iff ps [] kw hp.2 hk).1 h
          simp only [List.length_nil, List.drop_zero] at h2 h3
          refine ⟨fun k hkk => List.mem_cons_of_mem _ (h2 k hkk), ?_⟩
          intro q hq hqd
          rcases List.mem_cons.1 hq with rfl | hq
          · exact absurd hqd hd
          · exact h3 q hq hqd
      · rintro ⟨h2, h3⟩
        by_cases hin : p.name ∈ kw.map Prod.fst
        · obtain ⟨e, he, hee⟩ := List.mem_map.1 hin
          have hk' : ((kw.filter (fun e => e.1 ≠ p.name)).map Prod.fst).Nodup :=
            hk.sublist (List.filter_sublist.map _)
          refine .keyword (v := e.2) (by rw [← hee]; exact he) ((accepts_iff ps [] _ hp.2 hk').2 ?_)
          simp only [List.length_nil, List.drop_zero, Nat.zero_le, true_and]
          refine ⟨?_, ?_⟩
          · intro k hkk
            obtain ⟨e', he', hek⟩ := List.mem_map.1 hkk
            have hne := (List.mem_filter.1 he').2
            simp only [ne_eq, decide_eq_true_eq] at hne
            have := h2 k (List.mem_map.2 ⟨e', (List.mem_filter.1 he').1, hek⟩)
            rw [List.map_cons, List.mem_cons] at this
            rcases this with h | h
            · exact absurd (hek.trans h) hne
            · exact h
          · intro q hq hd
            obtain ⟨e', he', hee'⟩ := List.mem_map.1 (h3 q (List.mem_cons_of_mem _ hq) hd)
            refine List.mem_map.2 ⟨e', List.mem_filter.2 ⟨he', ?_⟩, hee'⟩
            simp only [ne_eq, decide_eq_true_eq]
            intro hc
            exact hp.1 (List.mem_map.2 ⟨q, hq, by rw [← hee', hc]⟩)
        · have hd : p.default ≠ none := fun hc => hin (h3 p List.mem_cons_self hc)
          refine .default hd hin ((accepts_iff ps [] kw hp.2 hk).2 ?_)
          simp only [List.length_nil, List.drop_zero, Nat.zero_le, true_and]
          refine ⟨?_, fun q hq hqd => h3 q (List.mem_cons_of_mem _ hq) hqd⟩
          intro k hkk
          have := h2 k hkk
          rw [List.map_cons, List.mem_cons] at this
          rcases this with h | h
          · exact absurd (h ▸ hkk) hin
          · exact h

/-- Inserting parameters with new names appends them. -/
theorem foldl_insert : ∀ (ps d : List (Param N D)), ((d ++ ps).map (·.name)).Nodup →
    ps.foldl insert d = d ++ ps
  | [], d, _ => by simp
  | p :: ps, d, h => by
    have hnot : d.any (fun q => q.name = p.name) = false := by
      rw [List.any_eq_false]
      intro q hq
      simp only [decide_eq_true_eq]
      intro hc
      rw [List.map_append, List.nodup_append] at h
      exact h.2.2 q.name (List.mem_map.2 ⟨q, hq, rfl⟩) p.name (by simp) hc
    have hins : insert d p = d ++ [p] := by
      unfold insert
      rw [hnot]
      simp
    rw [List.foldl_cons, hins, foldl_insert ps (d ++ [p]) (by simpa using h)]
    simp

theorem bindPositional_eq : ∀ (args : List V) (d : List (Param N D)) (bound : List (Param N D × V)),
    args.length ≤ d.length →
    bindPositional args d bound =
      .ok (d.take (d.length - args.length), bound ++ d.reverse.zip args)
  | [], d, bound, _ => by simp [bindPositional]
  | a :: args, d, bound, h => by
    rcases List.eq_nil_or_concat d with rfl | ⟨d', p, rfl⟩
    · simp at h
    · rw [List.concat_eq_append] at h ⊢
      have hl : (d' ++ [p]).length = d'.length + 1 := by simp
      rw [hl, List.length_cons] at h ⊢
      unfold bindPositional
      rw [List.getLast?_append_of_ne_nil _ (by simp)]
      simp only [List.getLast?_singleton, List.dropLast_concat]
      rw [bindPositional_eq args d' _ (by omega)]
      congr 1
      refine Prod.ext ?_ ?_
      · dsimp only
        rw [List.take_append_of_le_length (by omega)]
        congr 1
        omega
      · simp

theorem find_some_of_mem {d : List (Param N D)} {p : Param N D} (hd : (d.map (·.name)).Nodup)
    (hp : p ∈ d) : d.find? (fun q => q.name = p.name) = some p := by
  cases hf : d.find? (fun q => q.name = p.name) with
  | none =>
    have := List.find?_eq_none.1 hf p hp
    simp at this
  | some q =>
    have h1 := List.mem_of_find?_eq_some hf
    have h2 := List.find?_some hf
    simp only [decide_eq_true_eq] at h2
    congr 1
    exact List.inj_on_of_nodup_map hd h1 hp h2

/-- The keyword loop succeeds exactly if every keyword names a parameter that is left. -/
theorem bindKeywords_ok (known : List N) : ∀ (kw : List (N × V)) (d : List (Param N D))
    (bound : List (Param N D × V)), (d.map (·.name)).Nodup → (kw.map Prod.fst).Nodup →
    (∀ p ∈ d, p.name ∈ known) → (∀ k ∈ kw.map Prod.fst, k ∈ d.map (·.name)) →
    ∃ res, bindKeywords known kw d bound = .ok (bound ++ res) ∧
      res.map (fun b => (b.1.name, b.2)) = kw ∧ ∀ b ∈ res, b.1 ∈ d
  | [], d, bound, _, _, _, _ => ⟨[], by simp [bindKeywords], rfl, by simp⟩
  | (k, a) :: kw, d, bound, hd, hk, hkn, hin => by
    rw [List.map_cons, List.nodup_cons] at hk
    obtain ⟨p, hp, hpk⟩ := List.mem_map.1 (hin k (by simp))
    have hd' : ((d.filter (fun q => q.name ≠ k)).map (·.name)).Nodup :=
      hd.sublist (List.filter_sublist.map _)
    obtain ⟨res, e, h1, h2⟩ := bindKeywords_ok known kw (d.filter (fun q => q.name ≠ k))
      (bound ++ [(p, a)]) hd' hk.2 (fun q hq => hkn q (List.mem_filter.1 hq).1) (by
        intro k' hk'
        obtain ⟨q, hq, hqk⟩ := List.mem_map.1 (hin k' (by
          rw [List.map_cons]
          exact List.mem_cons_of_mem _ hk'))
        refine List.mem_map.2 ⟨q, List.mem_filter.2 ⟨hq, ?_⟩, hqk⟩
        simp only [ne_eq, decide_eq_true_eq]
        intro hc
        exact hk.1 (by rw [← hc, hqk]; exact hk'))
    refine ⟨(p, a) :: res, ?_, ?_, ?_⟩
    · unfold bindKeywords
      rw [if_neg (by
        rw [not_not, ← hpk]
        exact hkn p hp)]
      have hfind : d.find? (fun q => decide (q.name = k)) = some p := by
        have := find_some_of_mem hd hp
        rw [hpk] at this
        exact this
      rw [hfind]
      simp only
      rw [e]
      simp
    · rw [List.map_cons, h1, hpk]
    · intro b hb
      rcases List.mem_cons.1 hb with rfl | hb
      · exact hp
      · exact (List.mem_filter.1 (h2 b hb)).1

theorem bindKeywords_inv (known : List N) : ∀ (kw : List (N × V)) (d : List (Param N D))
    (bound r : List (Param N D × V)), bindKeywords known kw d bound = .ok r →
    ∀ k ∈ kw.map Prod.fst, k ∈ d.map (·.name)
  | [], d, bound, r, _ => by simp
  | (k, a) :: kw, d, bound, r, h => by
    unfold bindKeywords at h
    split at h
    · cases h
    · split at h
      · cases h
      · rename_i p hf
        intro k' hk'
        rcases List.mem_cons.1 hk' with rfl | hk'
        · have h1 := List.mem_of_find?_eq_some hf
          have h2 := List.find?_some hf
          simp only [decide_eq_true_eq] at h2
          exact List.mem_map.2 ⟨p, h1, h2⟩
        · obtain ⟨q, hq, e⟩ := List.mem_map.1 (bindKeywords_inv known kw _ _ _ h k' hk')
          exact List.mem_map.2 ⟨q, (List.mem_filter.1 hq).1, e⟩

theorem take_eq_reverse_drop (ps : List (Param N D)) (n : Nat) (h : n ≤ ps.length) :
    ps.reverse.take (ps.reverse.length - n) = (ps.drop n).reverse := by
  rw [List.length_reverse, List.take_reverse]
  congr 2
  omega

/-- What binding does with a dictionary made from distinct parameters. -/
theorem bind_ok_iff {ps : List (Param N D)} {args : List V} {kw : List (N × V)}
    (hp : (ps.map (·.name)).Nodup) (hk : (kw.map Prod.fst).Nodup) :
    (∃ r, bind ps.reverse args kw = .ok r) ↔ args.length ≤ ps.length ∧
      ∀ k ∈ kw.map Prod.fst, k ∈ (ps.drop args.length).map (·.name) := by
  constructor
  · rintro ⟨r, h⟩
    unfold bind at h
    split at h
    · cases h
    · rename_i hlen
      rw [List.length_reverse] at hlen
      have hle : args.length ≤ ps.length := by omega
      rw [bindPositional_eq args _ _ (by simpa using hle)] at h
      simp only at h
      rw [take_eq_reverse_drop ps _ hle] at h
      refine ⟨hle, ?_⟩
      intro k hkk
      have := bindKeywords_inv _ _ _ _ _ h k hkk
      rwa [List.map_reverse, List.mem_reverse] at this
  · rintro ⟨hle, hin⟩
    have hlen : kw.length ≤ (ps.drop args.length).length := by
      have h1 : (kw.map Prod.fst).length ≤ ((ps.drop args.length).map (·.name)).length :=
        (hk.subperm hin).length_le
      simpa using h1
    rw [List.length_drop] at hlen
    unfold bind
    rw [if_neg (by rw [List.length_reverse]; omega), bindPositional_eq args _ _ (by simpa using hle)]
    simp only
    rw [take_eq_reverse_drop ps _ hle]
    obtain ⟨res, e, _, _⟩ := bindKeywords_ok (ps.reverse.map (·.name)) kw (ps.drop args.length).reverse
      ([] ++ ps.reverse.reverse.zip args)
      (by rw [List.map_reverse, List.nodup_reverse]
          exact hp.sublist ((List.drop_sublist _ _).map _)) hk
      (by intro p hpp
          rw [List.mem_reverse] at hpp
          exact List.mem_map.2 ⟨p, List.mem_reverse.2 (List.mem_of_mem_drop hpp), rfl⟩)
      (by intro k hkk
          rw [List.map_reverse, List.mem_reverse]
          exact hin k hkk)
    exact ⟨_, e⟩

/-- The binding itself: positional arguments to the first parameters in order, keywords by name. -/
theorem bind_ok_eq {ps : List (Param N D)} {args : List V} {kw : List (N × V)}
    {r : List (Param N D × V)} (hp : (ps.map (·.name)).Nodup) (hk : (kw.map Prod.fst).Nodup)
    (h : bind ps.reverse args kw = .ok r) :
    args.length ≤ ps.length ∧ ∃ res, r = ps.zip args ++ res ∧
      res.map (fun b => (b.1.name, b.2)) = kw ∧ ∀ b ∈ res, b.1 ∈ ps.drop args.length := by
  obtain ⟨hle, hin⟩ := (bind_ok_iff hp hk).1 ⟨r, h⟩
  refine ⟨hle, ?_⟩
  unfold bind at h
  split at h
  · cases h
  · rw [bindPositional_eq args _ _ (by simpa using hle)] at h
    simp only at h
    rw [take_eq_reverse_drop ps _ hle] at h
    obtain ⟨res, e, h1, h2⟩ := bindKeywords_ok (ps.reverse.map (·.name)) kw
      (ps.drop args.length).reverse ([] ++ ps.reverse.reverse.zip args)
      (by rw [List.map_reverse, List.nodup_reverse]
          exact hp.sublist ((List.drop_sublist _ _).map _)) hk
      (by intro p hpp
          rw [List.mem_reverse] at hpp
          exact List.mem_map.2 ⟨p, List.mem_reverse.2 (List.mem_of_mem_drop hpp), rfl⟩)
      (by intro k hkk
          rw [List.map_reverse, List.mem_reverse]
          exact hin k hkk)
    rw [e] at h
    cases h
    refine ⟨res, by simp, h1, ?_⟩
    intro b hb
    exact List.mem_reverse.1 (h2 b hb)

theorem zip_names {ps : List (Param N D)} {args : List V} (h : args.length ≤ ps.length) :
    (ps.zip args).map (fun b => b.1.name) = (ps.take args.length).map (·.name) := by
  induction ps generalizing args with
  | nil => simp
  | cons p ps ih =>
    cases args with
    | nil => simp
    | cons a args =>
      simp only [List.length_cons] at h
      simp only [List.zip_cons_cons, List.map_cons, List.length_cons, List.take_succ_cons]
      rw [ih (by omega)]

theorem signature_plain (strict output : N) (dflt : D) (op : Op N D)
    (hp : (op.parameters.map (·.name)).Nodup) :
    signature strict output dflt op false = op.parameters.reverse := by
  unfold signature
  simp only [Bool.false_eq_true, if_false]
  rw [foldl_insert _ _ (by rw [List.nil_append, List.map_reverse, List.nodup_reverse]; exact hp),
    List.nil_append]

/-! ## Properties -/

/-- **C47.**  A call is accepted exactly if Python would accept it: each argument binds to exactly one
parameter, every parameter without default is given and no unknown keyword is used. -/
theorem validate_iff_accepts (strict output : N) (dflt : D) (op : Op N D) (args : List V)
    (kw : List (N × V)) (hp : (op.parameters.map (·.name)).Nodup) (hk : (kw.map Prod.fst).Nodup) :
    validate strict output dflt op args kw = true ↔ Accepts op.parameters args kw := by
  rw [accepts_iff _ _ _ hp hk]
  unfold validate
  rw [signature_plain strict output dflt op hp]
  cases hb : bind op.parameters.reverse args kw with
  | error e =>
    simp only [Bool.false_eq_true, false_iff]
    rintro ⟨h1, h2, _⟩
    obtain ⟨r, hr⟩ := (bind_ok_iff hp hk).2 ⟨h1, h2⟩
    rw [hb] at hr
    cases hr
  | ok bound =>
    obtain ⟨h1, h2⟩ := (bind_ok_iff hp hk).1 ⟨bound, hb⟩
    obtain ⟨_, res, e, hres, hmem⟩ := bind_ok_eq hp hk hb
    have hnames : bound.map (fun b => b.1.name) =
        (op.parameters.take args.length).map (·.name) ++ kw.map Prod.fst := by
      rw [e, List.map_append, zip_names h1]
      congr 1
      rw [← hres, List.map_map]
      rfl
    have hnd : (bound.map (fun b => b.1.name)).Nodup := by
      rw [hnames, List.nodup_append]
      refine ⟨hp.sublist ((List.take_sublist _ _).map _), hk, ?_⟩
      intro x hx y hy hxy
      subst hxy
      have hy' := h2 x hy
      have := hp
      rw [← List.take_append_drop args.length op.parameters, List.map_append, List.nodup_append] at this
      exact this.2.2 x hx x hy' rfl
    have hlen : (bound.map (fun b => b.1.name)).dedup.length = args.length + kw.length := by
      rw [List.dedup_eq_self.2 hnd, hnames]
      simp [h1]
    dsimp only
    rw [if_neg (not_not.2 hlen), List.dedup_eq_self.2 hnd, hnames]
    rw [List.all_eq_true]
    constructor
    · intro h
      refine ⟨h1, h2, ?_⟩
      intro p hpp hd
      have := h p (List.mem_of_mem_drop hpp)
      simp only [hd, Option.isNone_none, Bool.and_true, Bool.not_eq_true', decide_eq_false_iff_not,
        not_not, List.mem_append] at this
      rcases this with h | h
      · exfalso
        have hn := hp
        rw [← List.take_append_drop args.length op.parameters, List.map_append, List.nodup_append] at hn
        exact hn.2.2 _ h _ (List.mem_map.2 ⟨p, hpp, rfl⟩) rfl
      · exact h
    · rintro ⟨_, _, h3⟩ p hpp
      by_cases hd : p.default = none
      · simp only [hd, Option.isNone_none, Bool.and_true, Bool.not_eq_true', decide_eq_false_iff_not,
          not_not, List.mem_append]
        rw [← List.take_append_drop args.length op.parameters, List.mem_append] at hpp
        rcases hpp with h | h
        · exact Or.inl (List.mem_map.2 ⟨p, h, rfl⟩)
        · exact Or.inr (h3 p h hd)
      · have : p.default.isNone = false := by
          cases hdd : p.default
          · exact absurd hdd hd
          · rfl
        simp [this]

/-- The quantization parameters in the order in which surplus positional arguments reach them. -/
def quantizationParams (strict output : N) (dflt : D) (op : Op N D) : List (Param N D) :=
  (op.intermediates.reverse.map (fun i => ⟨i, some dflt⟩)) ++
    (if op.returnsQuantized then [⟨output, some dflt⟩] else []) ++ [⟨strict, some dflt⟩]

/-- **C47.**  Partial binding with the quantization parameters: positional argument `i` goes to parameter
`i`, keyword arguments go to the parameter of that name, and it succeeds exactly if there are not too many
positional arguments and each keyword names a parameter not bound by position. -/
theorem bind_partial_spec (strict output : N) (dflt : D) (op : Op N D) (args : List V)
    (kw : List (N × V))
    (hp : ((op.parameters ++ quantizationParams strict output dflt op).map (·.name)).Nodup)
    (hk : (kw.map Prod.fst).Nodup) :
    let all := op.parameters ++ quantizationParams strict output dflt op
    ((∃ r, bindPartial strict output dflt op args kw = .ok r) ↔ args.length ≤ all.length ∧
      ∀ k ∈ kw.map Prod.fst, k ∈ (all.drop args.length).map (·.name)) ∧
    ∀ r, bindPartial strict output dflt op args kw = .ok r → ∃ res, r = all.zip args ++ res ∧
      res.map (fun b => (b.1.name, b.2)) = kw ∧ ∀ b ∈ res, b.1 ∈ all.drop args.length := by
  intro all
  have hsig : signature strict output dflt op true = all.reverse := by
    have hrev : all.reverse = ((quantizationParams strict output dflt op).reverse) ++
        op.parameters.reverse := by simp [all]
    have hnd : (all.reverse.map (·.name)).Nodup := by
      rw [List.map_reverse, List.nodup_reverse]
      exact hp
    rw [hrev] at hnd ⊢
    have hq : (quantizationParams strict output dflt op).reverse =
        ([⟨strict, some dflt⟩] ++ (if op.returnsQuantized then [⟨output, some dflt⟩] else [])) ++
          op.intermediates.map (fun i => ⟨i, some dflt⟩) := by
      unfold quantizationParams
      cases op.returnsQuantized <;> simp
    unfold signature
    simp only [if_true]
    have hfold : ∀ (is : List N) (d : List (Param N D)),
        is.foldl (fun d i => insert d ⟨i, some dflt⟩) d =
          (is.map (fun i => (⟨i, some dflt⟩ : Param N D))).foldl insert d := by
      intro is
      induction is with
      | nil => intro d; rfl
      | cons i is ih => intro d; exact ih _
    have hstart : (if op.returnsQuantized then insert (insert [] ⟨strict, some dflt⟩)
        ⟨output, some dflt⟩ else insert [] ⟨strict, some dflt⟩) =
        [⟨strict, some dflt⟩] ++ (if op.returnsQuantized then [⟨output, some dflt⟩] else
          ([] : List (Param N D))) := by
      rw [hq] at hnd
      cases hr : op.returnsQuantized with
      | false => rfl
      | true =>
        simp only [hr, if_true] at hnd ⊢
        have h1 : insert [] (⟨strict, some dflt⟩ : Param N D) = [⟨strict, some dflt⟩] := rfl
        rw [h1]
        have := foldl_insert [⟨output, some dflt⟩] [(⟨strict, some dflt⟩ : Param N D)]
          (hnd.sublist (by
            apply List.Sublist.map
            rw [List.append_assoc, List.append_assoc]
            exact List.Sublist.append (List.Sublist.refl _) (List.sublist_append_left _ _)))
        exact this
    have hmid : (op.intermediates.map (fun i => (⟨i, some dflt⟩ : Param N D))).foldl insert
        ([⟨strict, some dflt⟩] ++ (if op.returnsQuantized then [⟨output, some dflt⟩] else [])) =
        (quantizationParams strict output dflt op).reverse := by
      rw [foldl_insert _ _ (by
        rw [← hq]
        exact hnd.sublist ((List.sublist_append_left _ _).map _)), ← hq]
    rw [hstart, hfold, hmid, foldl_insert _ _ hnd]
  unfold bindPartial
  rw [hsig]
  refine ⟨bind_ok_iff hp hk, fun r hr => (bind_ok_eq hp hk hr).2⟩

/-- **C47, deviation.**  For a signature with a positional-only parameter, `f(a, /, b)`, the first positional
argument of a call is bound to `b`. -/
theorem positional_only_bound_last (a b : Param N D) (hab : a.name ≠ b.name) (strict output : N)
    (dflt : D) (x y : V) :
    bind (signature strict output dflt ⟨fromSpec [a] [b] [], false, []⟩ false) [x, y] [] =
      .ok [(b, x), (a, y)] := by
  rw [signature_plain strict output dflt _ (by simp [fromSpec, hab.symm])]
  simp [fromSpec, bind, bindPositional, bindKeywords]

/-! ## Concrete cases -/

/-- `linear(input, weight, bias=None)` returning a quantized tensor. -/
def linear : Op String String :=
  ⟨[⟨"input", none⟩, ⟨"weight", none⟩, ⟨"bias", some "None"⟩], true, []⟩

example : validate "strict_quantization" "output_quantizer" "None" linear [1, 2] [("bias", 3)] = true := by
  decide
example : validate "strict_quantization" "output_quantizer" "None" linear [1] [("weight", 3)] = true := by
  decide
example : validate "strict_quantization" "output_quantizer" "None" linear [1] [("bias", 3)] = false := by
  decide
example : validate "strict_quantization" "output_quantizer" "None" linear [1, 2] [("weight", 3)] =
    false := by decide
example : (linear.parameters.map (·.name)).Nodup ∧
    ((linear.parameters ++ quantizationParams "strict_quantization" "output_quantizer" "None"
      linear).map (·.name)).Nodup := by decide
example : (bindPartial "strict_quantization" "output_quantizer" "None" linear [1, 2]
    [("output_quantizer", 9), ("bias", 3)]).toOption.map (fun r => r.map (fun b => (b.1.name, b.2))) =
    some [("input", 1), ("weight", 2), ("output_quantizer", 9), ("bias", 3)] := by decide

end FF.Operator
