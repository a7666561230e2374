import Mathlib.Data.List.Basic
import Mathlib.Data.List.Nodup
import Mathlib.Data.List.Perm.Basic
import Mathlib.Algebra.BigOperators.Group.List.Basic
import Mathlib.Data.Nat.Notation

/-!
# Listing the quantizers of a model

Models `named_quantizers`, `quantizer_state_dict`, `_summarize_quantizers` and `_deduplicate_quantizer_names` in `/repo/src/fastforward/nn/quantized_module.py`, with `named_modules` and
`named_children` of `torch.nn.Module`, which they go through. Other models take the list of quantizers as given; here is where it comes from.
-/

namespace FF.Listing

/-! ### Model -/

inductive Kind where
  | plain | quantizer | stub
  deriving DecidableEq, Repr

/-- A module: its identity, what it is, and its children by name. A module that is used in several places occurs several times with the same identity. -/
inductive Mod where
  | mk (id : ℕ) (kind : Kind) (children : List (String × Mod))

def Mod.id : Mod → ℕ
  | .mk i _ _ => i

def Mod.kind : Mod → Kind
  | .mk _ k _ => k

def Mod.children : Mod → List (String × Mod)
  | .mk _ _ cs => cs

mutual
/-- `torch.nn.Module.named_modules`: the module, unless it has been met, then its children. With `rd` modules that are met are remembered. Names are lists of parts. -/
def walk (rd : Bool) (path : List String) (memo : List ℕ) : Mod → List (List String × Mod) × List ℕ
  | .mk i k cs => if i ∈ memo then ([], memo) else
    let r := walkAll rd path (if rd then i :: memo else memo) cs
    ((path, .mk i k cs) :: r.1, r.2)
def walkAll (rd : Bool) (path : List String) (memo : List ℕ) : List (String × Mod) → List (List String × Mod) × List ℕ
  | [] => ([], memo)
  | (n, m) :: cs =>
    let a := walk rd (path ++ [n]) memo m
    let b := walkAll rd path a.2 cs
    (a.1 ++ b.1, b.2)
end

/-- `torch.nn.Module.named_children`: each child once. -/
def kids (memo : List ℕ) : List (String × Mod) → List (List String × Mod)
  | [] => []
  | (n, m) :: cs => if m.id ∈ memo then kids memo cs else ([n], m) :: kids (m.id :: memo) cs

/-- Whether a module is listed (`quantized_module.py:68-70`). -/
def listed (skipStubs : Bool) (m : Mod) : Bool := match m.kind with
  | .plain => false
  | .stub => !skipStubs
  | .quantizer => true

/-- The parts of a name, joined. -/
def join : List String → String
  | [] => ""
  | [a] => a
  | a :: b :: r => a ++ "." ++ join (b :: r)

/-- `prefix + ("." if prefix else "") + name` (71). -/
def prefixed (pre : String) (name : String) : String := if pre = "" then name else pre ++ "." ++ name

/-- What `named_quantizers` (39-72) goes through, before names are spelled. -/
def found (m : Mod) (recurse rd skipStubs : Bool) : List (List String × Mod) :=
  (if recurse then (walk rd [] [] m).1 else kids [] m.children).filter fun e => listed skipStubs e.2

/-- `named_quantizers` (39-72). -/
def namedQuantizers (m : Mod) (pre : String) (recurse rd skipStubs : Bool) : List (String × ℕ) :=
  (found m recurse rd skipStubs).map fun e => (prefixed pre (join e.1), e.2.id)

/-- `quantizer_state_dict` (75-92): the entries, given the names of the parameters of a quantizer. -/
def stateKeys (params : ℕ → List String) (m : Mod) : List String :=
  (namedQuantizers m "" true true true).flatMap fun e => (params e.2).map fun p => if e.1 = "" then p else e.1 ++ "." ++ p

section
variable {κ : Type} [DecidableEq κ]

/-- `d.setdefault(k, []).append(v)`. -/
def addTo (d : List (κ × List String)) (k : κ) (v : String) : List (κ × List String) := match d with
  | [] => [(k, [v])]
  | (k', vs) :: r => if k' = k then (k', vs ++ [v]) :: r else (k', vs) :: addTo r k v

def groupBy (key : String → κ) : List (κ × List String) → List String → List (κ × List String)
  | d, [] => d
  | d, n :: ns => groupBy key (addTo d (key n) n) ns

/-- `sorted(…, key=lambda item: len(item[1]), reverse=True)`. -/
def insertBig (e : κ × List String) : List (κ × List String) → List (κ × List String)
  | [] => [e]
  | f :: r => if f.2.length < e.2.length then e :: f :: r else f :: insertBig e r

def sortBig : List (κ × List String) → List (κ × List String) → List (κ × List String)
  | acc, [] => acc
  | acc, e :: r => sortBig (insertBig e acc) r

/-- `_summarize_quantizers` (686-696), from the names of the quantizers and their representations. -/
def summarize (repr : String → κ) (names : List String) : List (κ × List String) := sortBig [] (groupBy repr [] names)
end

/-- The parts of a name with numbers as wildcards (703-704). `isNumber` is `str.isdigit`. -/
def wild (isNumber : String → Bool) (parts : List String) : List (Option String) := parts.map fun p => if isNumber p then none else some p

/-- `_deduplicate_quantizer_names` (699-712): names or patterns, with counts. -/
def dedup (isNumber : String → Bool) (split : String → List String) (names : List String) : List (String × ℕ) :=
  (sortBig [] (groupBy (fun n => wild isNumber (split n)) [] names)).map fun g => match g.2 with
    | [n] => (n, 1)
    | ns => (join (g.1.map fun p => p.getD "[]"), ns.length)

/-! ### Specification -/

/-- Following the names of a path from a module leads to another. -/
inductive At : Mod → List String → Mod → Prop
  | here (m) : At m [] m
  | step (m n c p m') : (n, c) ∈ m.children → At c p m' → At m (n :: p) m'

/-- A module is the same wherever it is used. -/
def Shared (root : Mod) : Prop := ∀ p q a b, At root p a → At root q b → a.id = b.id → a = b

/-- The children of a module have different names, everywhere in the model. -/
def Names (root : Mod) : Prop := ∀ p a, At root p a → (a.children.map Prod.fst).Nodup

/-- Is a quantizer that is to be listed. -/
def IsListed (skipStubs : Bool) (m : Mod) : Prop := m.kind = .quantizer ∨ (m.kind = .stub ∧ skipStubs = false)

/-! ### Lemmas -/

theorem listed_iff (s : Bool) (m : Mod) : listed s m = true ↔ IsListed s m := by
  unfold listed IsListed
  cases m.kind <;> cases s <;> simp

theorem at_mk {i : ℕ} {k : Kind} {cs : List (String × Mod)} {q : List String} {m' : Mod} (h : At (.mk i k cs) q m') :
    (q = [] ∧ m' = .mk i k cs) ∨ ∃ n c p, q = n :: p ∧ (n, c) ∈ cs ∧ At c p m' := by
  cases h with
  | here => exact .inl ⟨rfl, rfl⟩
  | step _ n c p _ hc hp => exact .inr ⟨n, c, p, rfl, hc, hp⟩

theorem at_cons {cs : List (String × Mod)} {i : ℕ} {k : Kind} {n : String} {c : Mod} {p : List String} {m' : Mod} (hc : (n, c) ∈ cs) (h : At c p m') : At (.mk i k cs) (n :: p) m' := .step _ n c p m' hc h

mutual
theorem walk_sound (rd : Bool) : ∀ (m : Mod) (path : List String) (memo : List ℕ) (p : List String) (m' : Mod), (p, m') ∈ (walk rd path memo m).1 → ∃ q, p = path ++ q ∧ At m q m'
  | .mk i k cs, path, memo, p, m', h => by
    rw [walk] at h
    by_cases hi : i ∈ memo
    · rw [if_pos hi] at h; cases h
    · rw [if_neg hi] at h
      rcases List.mem_cons.1 h with h | h
      · cases h; exact ⟨[], by simp, .here _⟩
      · obtain ⟨n, c, q, hc, rfl, hq⟩ := walkAll_sound rd cs path _ p m' h
        exact ⟨n :: q, rfl, at_cons hc hq⟩
theorem walkAll_sound (rd : Bool) : ∀ (cs : List (String × Mod)) (path : List String) (memo : List ℕ) (p : List String) (m' : Mod), (p, m') ∈ (walkAll rd path memo cs).1 →
    ∃ n c q, (n, c) ∈ cs ∧ p = path ++ n :: q ∧ At c q m'
  | [], _, _, _, _, h => by rw [walkAll] at h; cases h
  | (n, m) :: cs, path, memo, p, m', h => by
    rw [walkAll] at h
    rcases List.mem_append.1 h with h | h
    · obtain ⟨q, rfl, hq⟩ := walk_sound rd m _ _ p m' h
      exact ⟨n, m, q, List.mem_cons_self .., by simp, hq⟩
    · obtain ⟨n', c, q, hc, hp, hq⟩ := walkAll_sound rd cs path _ p m' h
      exact ⟨n', c, q, List.mem_cons_of_mem _ hc, hp, hq⟩
end

mutual
/-- Without removing duplicates nothing is remembered. -/
theorem walk_memo : ∀ (m : Mod) (path : List String), (walk false path [] m).2 = []
  | .mk i k cs, path => by
    rw [walk, if_neg (by simp)]
    exact walkAll_memo cs path
theorem walkAll_memo : ∀ (cs : List (String × Mod)) (path : List String), (walkAll false path [] cs).2 = []
  | [], _ => by rw [walkAll]
  | (n, m) :: cs, path => by
    rw [walkAll]
    simp only [walk_memo m (path ++ [n])]
    exact walkAll_memo cs path
end

mutual
theorem walk_complete : ∀ (m : Mod) (path q : List String) (m' : Mod), At m q m' → (path ++ q, m') ∈ (walk false path [] m).1
  | .mk i k cs, path, q, m', h => by
    rw [walk, if_neg (by simp)]
    rcases at_mk h with ⟨rfl, rfl⟩ | ⟨n, c, p, rfl, hc, hp⟩
    · simp
    · exact List.mem_cons_of_mem _ (walkAll_complete cs path n c p m' hc hp)
theorem walkAll_complete : ∀ (cs : List (String × Mod)) (path : List String) (n : String) (c : Mod) (p : List String) (m' : Mod), (n, c) ∈ cs → At c p m' →
    (path ++ n :: p, m') ∈ (walkAll false path [] cs).1
  | [], _, _, _, _, _, h, _ => by cases h
  | (n', m) :: cs, path, n, c, p, m', hc, hp => by
    rw [walkAll]
    simp only [walk_memo m (path ++ [n'])]
    rcases List.mem_cons.1 hc with h | h
    · cases h
      have := walk_complete m (path ++ [n']) p m' hp
      rw [List.append_assoc] at this
      exact List.mem_append_left _ this
    · exact List.mem_append_right _ (walkAll_complete cs path n c p m' h hp)
end

mutual
theorem walk_paths_nodup (rd : Bool) : ∀ (m : Mod) (path : List String) (memo : List ℕ), (∀ p a, At m p a → (a.children.map Prod.fst).Nodup) → ((walk rd path memo m).1.map Prod.fst).Nodup
  | .mk i k cs, path, memo, hn => by
    rw [walk]
    by_cases hi : i ∈ memo
    · rw [if_pos hi]; simp
    · rw [if_neg hi]
      simp only [List.map_cons, List.nodup_cons]
      refine ⟨?_, walkAll_paths_nodup rd cs path _ (hn [] _ (.here _)) fun n c hc p a ha => hn (n :: p) a (at_cons hc ha)⟩
      intro h
      obtain ⟨⟨p, m'⟩, he, hp⟩ := List.mem_map.1 h
      obtain ⟨n, c, q, _, hq, _⟩ := walkAll_sound rd cs path _ p m' he
      have hl := congrArg List.length hq
      have hl2 : p.length = path.length := congrArg List.length hp
      simp at hl
      omega
theorem walkAll_paths_nodup (rd : Bool) : ∀ (cs : List (String × Mod)) (path : List String) (memo : List ℕ), (cs.map Prod.fst).Nodup →
    (∀ n c, (n, c) ∈ cs → ∀ p a, At c p a → (a.children.map Prod.fst).Nodup) → ((walkAll rd path memo cs).1.map Prod.fst).Nodup
  | [], _, _, _, _ => by simp [walkAll]
  | (n, m) :: cs, path, memo, hd, hn => by
    rw [walkAll]
    simp only [List.map_append]
    simp only [List.map_cons, List.nodup_cons] at hd
    refine List.nodup_append.2 ⟨walk_paths_nodup rd m _ _ fun p a ha => hn n m (List.mem_cons_self ..) p a ha,
      walkAll_paths_nodup rd cs path _ hd.2 fun n' c hc => hn n' c (List.mem_cons_of_mem _ hc), ?_⟩
    intro a ha b hb hab
    subst hab
    obtain ⟨⟨p, x⟩, h1, e1⟩ := List.mem_map.1 ha
    obtain ⟨⟨p', x'⟩, h2, e2⟩ := List.mem_map.1 hb
    obtain ⟨q, hq, _⟩ := walk_sound rd m _ _ p x h1
    obtain ⟨n', c, q', hc, hq', _⟩ := walkAll_sound rd cs path _ p' x' h2
    have e : p = p' := Eq.trans e1 (Eq.symm e2)
    rw [hq, hq', List.append_assoc] at e
    have e' := List.append_cancel_left e
    simp only [List.cons_append, List.nil_append, List.cons.injEq] at e'
    exact hd.1 (List.mem_map.2 ⟨(n', c), hc, e'.1.symm⟩)
end

mutual
/-- What is remembered at the end: what was before and what is listed; no module is listed twice. -/
theorem walk_ids : ∀ (m : Mod) (path : List String) (memo : List ℕ), (∀ i, i ∈ (walk true path memo m).2 ↔ i ∈ memo ∨ i ∈ (walk true path memo m).1.map (fun e => e.2.id)) ∧
    ((walk true path memo m).1.map (fun e => e.2.id)).Nodup ∧ (∀ i ∈ (walk true path memo m).1.map (fun e => e.2.id), i ∉ memo) ∧ m.id ∈ (walk true path memo m).2
  | .mk i k cs, path, memo => by
    rw [walk]
    by_cases hi : i ∈ memo
    · rw [if_pos hi]; simpa [Mod.id] using hi
    · rw [if_neg hi]
      obtain ⟨h1, h2, h3, _⟩ := walkAll_ids cs path (i :: memo)
      refine ⟨fun j => ?_, ?_, ?_, ?_⟩
      · simp only [if_true, List.map_cons, List.mem_cons, Mod.id]
        rw [h1 j, List.mem_cons]
        constructor
        · rintro ((h | h) | h)
          exacts [.inr (.inl h), .inl h, .inr (.inr h)]
        · rintro (h | h | h)
          exacts [.inl (.inr h), .inl (.inl h), .inr h]
      · simp only [if_true, List.map_cons, List.nodup_cons, Mod.id]
        exact ⟨fun h => h3 i h (List.mem_cons_self ..), h2⟩
      · intro j hj
        simp only [if_true, List.map_cons, List.mem_cons, Mod.id] at hj
        rcases hj with rfl | hj
        · exact hi
        · intro hm; exact h3 j hj (List.mem_cons_of_mem _ hm)
      · simp only [if_true, Mod.id]
        exact (h1 i).2 (.inl (List.mem_cons_self ..))
theorem walkAll_ids : ∀ (cs : List (String × Mod)) (path : List String) (memo : List ℕ),
    (∀ i, i ∈ (walkAll true path memo cs).2 ↔ i ∈ memo ∨ i ∈ (walkAll true path memo cs).1.map (fun e => e.2.id)) ∧
    ((walkAll true path memo cs).1.map (fun e => e.2.id)).Nodup ∧ (∀ i ∈ (walkAll true path memo cs).1.map (fun e => e.2.id), i ∉ memo) ∧
    ∀ n c, (n, c) ∈ cs → c.id ∈ (walkAll true path memo cs).2
  | [], path, memo => by simp [walkAll]
  | (n, m) :: cs, path, memo => by
    rw [walkAll]
    obtain ⟨h1, h2, h3, h4⟩ := walk_ids m (path ++ [n]) memo
    obtain ⟨g1, g2, g3, g4⟩ := walkAll_ids cs path (walk true (path ++ [n]) memo m).2
    refine ⟨fun j => ?_, ?_, ?_, ?_⟩
    · simp only [List.map_append, List.mem_append]
      rw [g1 j, h1 j]
      constructor
      · rintro ((h | h) | h)
        exacts [.inl h, .inr (.inl h), .inr (.inr h)]
      · rintro (h | h | h)
        exacts [.inl (.inl h), .inl (.inr h), .inr h]
    · simp only [List.map_append]
      refine List.nodup_append.2 ⟨h2, g2, ?_⟩
      intro a ha b hb hab
      subst hab
      exact g3 a hb ((h1 a).2 (.inr ha))
    · intro j hj
      simp only [List.map_append, List.mem_append] at hj
      rcases hj with hj | hj
      · exact h3 j hj
      · intro hm; exact g3 j hj ((h1 j).2 (.inl hm))
    · intro n' c hc
      rcases List.mem_cons.1 hc with h | h
      · cases h; exact (g1 _).2 (.inl h4)
      · exact g4 n' c h
end

mutual
/-- The children of listed modules are remembered. -/
theorem walk_children : ∀ (m : Mod) (path : List String) (memo : List ℕ) (p : List String) (x : Mod), (p, x) ∈ (walk true path memo m).1 →
    ∀ n c, (n, c) ∈ x.children → c.id ∈ (walk true path memo m).2
  | .mk i k cs, path, memo, p, x, h, n, c, hc => by
    rw [walk] at h ⊢
    by_cases hi : i ∈ memo
    · rw [if_pos hi] at h; cases h
    · rw [if_neg hi] at h ⊢
      rcases List.mem_cons.1 h with h | h
      · cases h
        exact (walkAll_ids cs path _).2.2.2 n c hc
      · exact walkAll_children cs path _ p x h n c hc
theorem walkAll_children : ∀ (cs : List (String × Mod)) (path : List String) (memo : List ℕ) (p : List String) (x : Mod), (p, x) ∈ (walkAll true path memo cs).1 →
    ∀ n c, (n, c) ∈ x.children → c.id ∈ (walkAll true path memo cs).2
  | [], _, _, _, _, h, _, _, _ => by rw [walkAll] at h; cases h
  | (n', m) :: cs, path, memo, p, x, h, n, c, hc => by
    rw [walkAll] at h ⊢
    rcases List.mem_append.1 h with h | h
    · have := walk_children m _ memo p x h n c hc
      exact ((walkAll_ids cs path _).1 _).2 (.inl this)
    · exact walkAll_children cs path _ p x h n c hc
end

theorem at_append {m a b : Mod} {p : List String} (h : At m p a) {n : String} (hc : (n, b) ∈ a.children) : At m (p ++ [n]) b := by
  induction h with
  | here m => exact .step m n b [] b hc (.here b)
  | step m n' c p m' h1 _ ih => exact .step m n' c _ b h1 (ih hc)

/-- Every module of the model is listed. -/
theorem walk_reaches (root : Mod) (hs : Shared root) : ∀ (q : List String) (a m : Mod) (p : List String), At root p a → (∃ r, (r, a) ∈ (walk true [] [] root).1) → At a q m → ∃ r, (r, m) ∈ (walk true [] [] root).1 := by
  intro q
  induction q with
  | nil => intro a m p _ ha h; cases h; exact ha
  | cons n q ih =>
    intro a m p hp ⟨r, hr⟩ h
    cases h with
    | step _ _ c _ _ hc hq =>
      have hid := walk_children root [] [] r a hr n c hc
      rw [(walk_ids root [] []).1] at hid
      rcases hid with hid | hid
      · cases hid
      · obtain ⟨⟨r', c'⟩, h1, h2⟩ := List.mem_map.1 hid
        obtain ⟨q', hq', hat⟩ := walk_sound true root [] [] r' c' h1
        have hcat := at_append hp hc
        have : c' = c := hs q' (p ++ [n]) c' c hat hcat h2
        subst this
        exact ih c' m (p ++ [n]) hcat ⟨r', h1⟩ hq

theorem kids_spec : ∀ (cs : List (String × Mod)) (memo : List ℕ), (∀ p m, (p, m) ∈ kids memo cs → ∃ n, p = [n] ∧ (n, m) ∈ cs) ∧ ((kids memo cs).map (fun e => e.2.id)).Nodup ∧
    (∀ i ∈ (kids memo cs).map (fun e => e.2.id), i ∉ memo) ∧ (∀ n m, (n, m) ∈ cs → m.id ∈ memo ∨ m.id ∈ (kids memo cs).map (fun e => e.2.id))
  | [], memo => by simp [kids]
  | (n, m) :: cs, memo => by
    rw [kids]
    by_cases hm : m.id ∈ memo
    · rw [if_pos hm]
      obtain ⟨h1, h2, h3, h4⟩ := kids_spec cs memo
      refine ⟨fun p x hx => ?_, h2, h3, fun n' x hx => ?_⟩
      · obtain ⟨n', e, h⟩ := h1 p x hx; exact ⟨n', e, List.mem_cons_of_mem _ h⟩
      · rcases List.mem_cons.1 hx with h | h
        · cases h; exact .inl hm
        · exact h4 n' x h
    · rw [if_neg hm]
      obtain ⟨h1, h2, h3, h4⟩ := kids_spec cs (m.id :: memo)
      refine ⟨fun p x hx => ?_, ?_, fun i hi => ?_, fun n' x hx => ?_⟩
      · rcases List.mem_cons.1 hx with h | h
        · cases h; exact ⟨n, rfl, List.mem_cons_self ..⟩
        · obtain ⟨n', e, h⟩ := h1 p x h; exact ⟨n', e, List.mem_cons_of_mem _ h⟩
      · simp only [List.map_cons, List.nodup_cons]
        exact ⟨fun h => h3 _ h (List.mem_cons_self ..), h2⟩
      · simp only [List.map_cons, List.mem_cons] at hi
        rcases hi with rfl | hi
        · exact hm
        · exact fun h => h3 i hi (List.mem_cons_of_mem _ h)
      · simp only [List.map_cons, List.mem_cons]
        rcases List.mem_cons.1 hx with h | h
        · cases h; exact .inr (.inl rfl)
        · rcases h4 n' x h with h | h
          · rcases List.mem_cons.1 h with h | h
            · exact .inr (.inl h)
            · exact .inl h
          · exact .inr (.inr h)

section
variable {κ : Type} [DecidableEq κ]

def total (d : List (κ × List String)) : ℕ := (d.map fun e => e.2.length).sum

omit [DecidableEq κ] in
theorem total_cons (e : κ × List String) (d : List (κ × List String)) : total (e :: d) = e.2.length + total d := by simp [total]

theorem addTo_total (k : κ) (v : String) : ∀ d : List (κ × List String), total (addTo d k v) = total d + 1
  | [] => by simp [addTo, total]
  | (k', vs) :: r => by
    rw [addTo]
    by_cases h : k' = k
    · rw [if_pos h, total_cons, total_cons]; simp; omega
    · rw [if_neg h, total_cons, total_cons, addTo_total k v r]; omega

theorem addTo_mem (k : κ) (v : String) : ∀ (d : List (κ × List String)) (k' : κ) (x : String),
    (∃ vs, (k', vs) ∈ addTo d k v ∧ x ∈ vs) ↔ (∃ vs, (k', vs) ∈ d ∧ x ∈ vs) ∨ (k' = k ∧ x = v)
  | [], k', x => by
    rw [addTo]
    constructor
    · rintro ⟨vs, h, hx⟩
      rcases List.mem_singleton.1 h with h
      cases h
      exact .inr ⟨rfl, List.mem_singleton.1 hx⟩
    · rintro (⟨vs, h, _⟩ | ⟨rfl, rfl⟩)
      · cases h
      · exact ⟨[x], List.mem_singleton.2 rfl, List.mem_singleton.2 rfl⟩
  | (a, as) :: r, k', x => by
    rw [addTo]
    by_cases h : a = k
    · rw [if_pos h]
      subst h
      constructor
      · rintro ⟨vs, hv, hx⟩
        rcases List.mem_cons.1 hv with hv | hv
        · cases hv
          rcases List.mem_append.1 hx with hx | hx
          · exact .inl ⟨as, List.mem_cons_self .., hx⟩
          · exact .inr ⟨rfl, List.mem_singleton.1 hx⟩
        · exact .inl ⟨vs, List.mem_cons_of_mem _ hv, hx⟩
      · rintro (⟨vs, hv, hx⟩ | ⟨rfl, rfl⟩)
        · rcases List.mem_cons.1 hv with hv | hv
          · cases hv; exact ⟨_, List.mem_cons_self .., List.mem_append_left _ hx⟩
          · exact ⟨vs, List.mem_cons_of_mem _ hv, hx⟩
        · exact ⟨_, List.mem_cons_self .., List.mem_append_right _ (List.mem_singleton.2 rfl)⟩
    · rw [if_neg h]
      have ih := addTo_mem k v r k' x
      constructor
      · rintro ⟨vs, hv, hx⟩
        rcases List.mem_cons.1 hv with hv | hv
        · cases hv; exact .inl ⟨as, List.mem_cons_self .., hx⟩
        · rcases ih.1 ⟨vs, hv, hx⟩ with ⟨ws, hw, hx'⟩ | h'
          · exact .inl ⟨ws, List.mem_cons_of_mem _ hw, hx'⟩
          · exact .inr h'
      · rintro (⟨vs, hv, hx⟩ | h')
        · rcases List.mem_cons.1 hv with hv | hv
          · cases hv; exact ⟨_, List.mem_cons_self .., hx⟩
          · obtain ⟨ws, hw, hx'⟩ := ih.2 (.inl ⟨vs, hv, hx⟩)
            exact ⟨ws, List.mem_cons_of_mem _ hw, hx'⟩
        · obtain ⟨ws, hw, hx'⟩ := ih.2 (.inr h')
          exact ⟨ws, List.mem_cons_of_mem _ hw, hx'⟩

theorem addTo_keys (k : κ) (v : String) : ∀ d : List (κ × List String), (d.map Prod.fst).Nodup → ((addTo d k v).map Prod.fst).Nodup ∧ ∀ k', k' ∈ (addTo d k v).map Prod.fst → k' ∈ d.map Prod.fst ∨ k' = k
  | [], _ => by simp [addTo]
  | (a, as) :: r, h => by
    rw [addTo]
    simp only [List.map_cons, List.nodup_cons] at h
    by_cases hk : a = k
    · rw [if_pos hk]
      simp only [List.map_cons, List.nodup_cons]
      exact ⟨h, fun k' hk' => .inl hk'⟩
    · rw [if_neg hk]
      obtain ⟨h1, h2⟩ := addTo_keys k v r h.2
      simp only [List.map_cons, List.nodup_cons, List.mem_cons]
      refine ⟨⟨fun hm => ?_, h1⟩, fun k' hk' => ?_⟩
      · rcases h2 a hm with h3 | h3
        · exact h.1 h3
        · exact hk h3
      · rcases hk' with rfl | hk'
        · exact .inl (.inl rfl)
        · rcases h2 k' hk' with h3 | h3
          · exact .inl (.inr h3)
          · exact .inr h3

theorem groupBy_spec (key : String → κ) : ∀ (names : List String) (d : List (κ × List String)), (d.map Prod.fst).Nodup →
    ((groupBy key d names).map Prod.fst).Nodup ∧ total (groupBy key d names) = total d + names.length ∧
    ∀ k x, (∃ vs, (k, vs) ∈ groupBy key d names ∧ x ∈ vs) ↔ (∃ vs, (k, vs) ∈ d ∧ x ∈ vs) ∨ (x ∈ names ∧ k = key x)
  | [], d, hd => by simp [groupBy, hd]
  | n :: ns, d, hd => by
    rw [groupBy]
    obtain ⟨h1, h2, h3⟩ := groupBy_spec key ns (addTo d (key n) n) (addTo_keys _ _ d hd).1
    refine ⟨h1, ?_, fun k x => ?_⟩
    · rw [h2, addTo_total]; simp; omega
    · rw [h3 k x, addTo_mem, List.mem_cons]
      constructor
      · rintro ((h | ⟨h, rfl⟩) | ⟨h, h'⟩)
        · exact .inl h
        · exact .inr ⟨.inl rfl, h⟩
        · exact .inr ⟨.inr h, h'⟩
      · rintro (h | ⟨rfl | h, h'⟩)
        · exact .inl (.inl h)
        · exact .inl (.inr ⟨h', rfl⟩)
        · exact .inr ⟨h, h'⟩

/-- Where a key of `addTo` comes from. -/
theorem addTo_entry (k : κ) (v : String) : ∀ (d : List (κ × List String)), (d.map Prod.fst).Nodup → ∀ k' ws, (k', ws) ∈ addTo d k v →
    (k' ≠ k ∧ (k', ws) ∈ d) ∨ (k' = k ∧ ∃ vs, ws = vs ++ [v] ∧ ((k, vs) ∈ d ∨ (vs = [] ∧ k ∉ d.map Prod.fst)))
  | [], _, k', ws, h => by
    rw [addTo] at h
    cases List.mem_singleton.1 h
    exact .inr ⟨rfl, [], rfl, .inr ⟨rfl, by simp⟩⟩
  | (a, as) :: r, hd, k', ws, h => by
    rw [addTo] at h
    simp only [List.map_cons, List.nodup_cons] at hd
    by_cases ha : a = k
    · rw [if_pos ha] at h
      rcases List.mem_cons.1 h with h | h
      · cases h; exact .inr ⟨ha, as, rfl, .inl (ha ▸ List.mem_cons_self ..)⟩
      · refine .inl ⟨fun e => hd.1 ?_, List.mem_cons_of_mem _ h⟩
        rw [ha, ← e]; exact List.mem_map_of_mem h
    · rw [if_neg ha] at h
      rcases List.mem_cons.1 h with h | h
      · cases h; exact .inl ⟨ha, List.mem_cons_self ..⟩
      · rcases addTo_entry k v r hd.2 k' ws h with ⟨h1, h2⟩ | ⟨h1, vs, h2, h3⟩
        · exact .inl ⟨h1, List.mem_cons_of_mem _ h2⟩
        · refine .inr ⟨h1, vs, h2, ?_⟩
          rcases h3 with h3 | ⟨h3, h4⟩
          · exact .inl (List.mem_cons_of_mem _ h3)
          · refine .inr ⟨h3, ?_⟩
            simp only [List.map_cons, List.mem_cons, not_or]
            exact ⟨fun e => ha e.symm, h4⟩

theorem addTo_has (k : κ) (v : String) : ∀ (d : List (κ × List String)) (k' : κ), k' ∈ d.map Prod.fst ∨ k' = k → k' ∈ (addTo d k v).map Prod.fst
  | [], k', h => by simpa [addTo] using h
  | (a, as) :: r, k', h => by
    rw [addTo]
    by_cases ha : a = k
    · rw [if_pos ha]
      simp only [List.map_cons, List.mem_cons] at h ⊢
      rcases h with h | h
      · exact h
      · exact .inl (h.trans ha.symm)
    · rw [if_neg ha]
      simp only [List.map_cons, List.mem_cons] at h ⊢
      rcases h with (h | h) | h
      · exact .inl h
      · exact .inr (addTo_has k v r k' (.inl h))
      · exact .inr (addTo_has k v r k' (.inr h))

/-- A group has the names with its key, in order. -/
theorem groupBy_group (key : String → κ) : ∀ (names : List String) (d : List (κ × List String)), (d.map Prod.fst).Nodup → ∀ k ws, (k, ws) ∈ groupBy key d names →
    ∃ vs, ((k, vs) ∈ d ∨ (vs = [] ∧ k ∉ d.map Prod.fst)) ∧ ws = vs ++ names.filter fun n => key n = k
  | [], d, _, k, ws, h => ⟨ws, .inl h, by simp⟩
  | n :: ns, d, hd, k, ws, h => by
    rw [groupBy] at h
    obtain ⟨vs, hv, e⟩ := groupBy_group key ns _ (addTo_keys (key n) n d hd).1 k ws h
    rcases hv with hv | ⟨rfl, hv⟩
    · rcases addTo_entry (key n) n d hd k vs hv with ⟨h1, h2⟩ | ⟨rfl, us, rfl, h3⟩
      · refine ⟨vs, .inl h2, ?_⟩
        rw [e, List.filter_cons_of_neg (by simpa using fun h => h1 h.symm)]
      · refine ⟨us, h3, ?_⟩
        rw [e, List.filter_cons_of_pos (by simp)]
        simp
    · refine ⟨[], .inr ⟨rfl, fun hk => hv (addTo_has _ _ d k (.inl hk))⟩, ?_⟩
      have : key n ≠ k := fun h => hv (addTo_has _ _ d k (.inr h.symm))
      rw [e, List.filter_cons_of_neg (by simpa using this)]

omit [DecidableEq κ] in
theorem insertBig_perm (e : κ × List String) : ∀ l : List (κ × List String), (insertBig e l).Perm (e :: l)
  | [] => .refl _
  | f :: r => by
    rw [insertBig]
    by_cases h : f.2.length < e.2.length
    · rw [if_pos h]
    · rw [if_neg h]
      exact ((insertBig_perm e r).cons f).trans (.swap e f r)

omit [DecidableEq κ] in
theorem sortBig_perm : ∀ l acc : List (κ × List String), (sortBig acc l).Perm (acc ++ l)
  | [], acc => by rw [sortBig, List.append_nil]
  | e :: r, acc => by
    rw [sortBig]
    refine (sortBig_perm r _).trans (((insertBig_perm e acc).append_right r).trans ?_)
    rw [List.cons_append]
    exact List.perm_middle.symm

/-- Longest first. -/
def Descending (l : List (κ × List String)) : Prop := l.Pairwise fun a b => b.2.length ≤ a.2.length

omit [DecidableEq κ] in
theorem insertBig_desc (e : κ × List String) : ∀ l : List (κ × List String), Descending l → Descending (insertBig e l)
  | [], _ => by simp [insertBig, Descending]
  | f :: r, h => by
    have h' := List.pairwise_cons.1 h
    rw [insertBig]
    by_cases hc : f.2.length < e.2.length
    · rw [if_pos hc]
      refine List.pairwise_cons.2 ⟨fun b hb => ?_, h⟩
      rcases List.mem_cons.1 hb with rfl | hb
      · omega
      · have := h'.1 b hb; omega
    · rw [if_neg hc]
      refine List.pairwise_cons.2 ⟨fun b hb => ?_, insertBig_desc e r h'.2⟩
      rcases List.mem_cons.1 ((insertBig_perm e r).mem_iff.1 hb) with rfl | hb
      · omega
      · exact h'.1 b hb

omit [DecidableEq κ] in
theorem sortBig_desc : ∀ l acc : List (κ × List String), Descending acc → Descending (sortBig acc l)
  | [], _, h => h
  | e :: r, acc, h => sortBig_desc r _ (insertBig_desc e acc h)

end

theorem join_append (p : String) : ∀ r : List String, r ≠ [] → join (r ++ [p]) = join r ++ "." ++ p
  | [], h => absurd rfl h
  | [a], _ => by simp [join]
  | a :: b :: r, _ => by
    have ih := join_append p (b :: r) (by simp)
    simp only [List.cons_append] at ih ⊢
    rw [join, ih, join]
    simp [String.append_assoc]

theorem join_ne : ∀ r : List String, r ≠ [] → "" ∉ r → join r ≠ ""
  | [], h, _ => absurd rfl h
  | [a], _, h => by
    intro e
    rw [join] at e
    exact h (by rw [e]; exact List.mem_singleton.2 rfl)
  | a :: b :: r, _, _ => by
    intro e
    rw [join] at e
    have := congrArg String.length e
    simp [String.length_append] at this

/-- The key of a parameter is the name of the quantizer with the name of the parameter as a further part. -/
theorem key_eq (r : List String) (p : String) (h : "" ∉ r) : (if prefixed "" (join r) = "" then p else prefixed "" (join r) ++ "." ++ p) = join (r ++ [p]) := by
  simp only [prefixed, if_true]
  by_cases hr : r = []
  · subst hr; simp [join]
  · rw [if_neg (join_ne r hr h), join_append p r hr]

/-! ### Properties -/

/-- **C124.** Without removing duplicates, every quantizer is listed under all its names, and nothing else is: a name is listed with a quantizer exactly if it leads there. Each name is listed once. -/
theorem all_names (m : Mod) (hn : Names m) (s : Bool) :
    (∀ p x, (p, x) ∈ found m true false s ↔ At m p x ∧ IsListed s x) ∧ ((found m true false s).map Prod.fst).Nodup := by
  refine ⟨fun p x => ?_, ?_⟩
  · unfold found
    rw [if_pos rfl, List.mem_filter, listed_iff]
    refine and_congr_left fun _ => ⟨fun h => ?_, fun h => ?_⟩
    · obtain ⟨q, rfl, hq⟩ := walk_sound false m [] [] p x h; exact hq
    · exact walk_complete m [] p x h
  · unfold found
    rw [if_pos rfl]
    exact ((List.filter_sublist).map Prod.fst).nodup (walk_paths_nodup false m [] [] hn)

/-- **C124.** With duplicates removed every quantizer of the model is listed exactly once, however often it is used, under a name that leads to it, and nothing else is listed. -/
theorem each_once (m : Mod) (hs : Shared m) (s : Bool) :
    ((found m true true s).map fun e => e.2.id).Nodup ∧ (∀ p x, (p, x) ∈ found m true true s → At m p x ∧ IsListed s x) ∧
    (∀ p x, At m p x → IsListed s x → ∃ r, (r, x) ∈ found m true true s) := by
  unfold found
  rw [if_pos rfl]
  refine ⟨((List.filter_sublist).map _).nodup (walk_ids m [] []).2.1, fun p x h => ?_, fun p x hp hl => ?_⟩
  · rw [List.mem_filter, listed_iff] at h
    obtain ⟨q, rfl, hq⟩ := walk_sound true m [] [] p x h.1
    exact ⟨hq, h.2⟩
  · have hroot : ∃ r, (r, m) ∈ (walk true [] [] m).1 := by
      cases m with
      | mk i k cs => exact ⟨[], by rw [walk, if_neg (by simp)]; exact List.mem_cons_self ..⟩
    obtain ⟨r, hr⟩ := walk_reaches m hs p m x [] (.here m) hroot hp
    exact ⟨r, List.mem_filter.2 ⟨hr, (listed_iff s x).2 hl⟩⟩

/-- **C124 (partial).** Without recursion the direct children that are quantizers are listed, each once. Missing: `remove_duplicate=False`, see `second_name_missing`. -/
theorem direct_children_partial (m : Mod) (hs : Shared m) (rd s : Bool) :
    ((found m false rd s).map fun e => e.2.id).Nodup ∧ (∀ p x, (p, x) ∈ found m false rd s → ∃ n, p = [n] ∧ (n, x) ∈ m.children ∧ IsListed s x) ∧
    (∀ n x, (n, x) ∈ m.children → IsListed s x → ∃ r, (r, x) ∈ found m false rd s) := by
  unfold found
  rw [if_neg (by simp)]
  obtain ⟨h1, h2, _, h4⟩ := kids_spec m.children []
  refine ⟨((List.filter_sublist).map _).nodup h2, fun p x h => ?_, fun n x hx hl => ?_⟩
  · rw [List.mem_filter, listed_iff] at h
    obtain ⟨n, e, hn⟩ := h1 p x h.1
    exact ⟨n, e, hn, h.2⟩
  · rcases h4 n x hx with h | h
    · cases h
    · obtain ⟨⟨r, y⟩, hy, he⟩ := List.mem_map.1 h
      obtain ⟨n', _, hn'⟩ := h1 r y hy
      have hat : ∀ n z, (n, z) ∈ m.children → At m [n] z := fun n z hz => .step m n z [] z hz (.here z)
      have : y = x := hs _ _ y x (hat n' y hn') (hat n x hx) he
      subst this
      exact ⟨r, List.mem_filter.2 ⟨hy, (listed_iff s y).2 hl⟩⟩

/-- **C124 (partial).** A prefix is put before each name. Missing: the module itself as a quantizer, see `trailing_dot`. -/
theorem prefix_put_partial (m : Mod) (pre : String) (hp : pre ≠ "") (r rd s : Bool) : namedQuantizers m pre r rd s = (namedQuantizers m "" r rd s).map fun e => (pre ++ "." ++ e.1, e.2) := by
  simp [namedQuantizers, prefixed, hp]

/-- **C124.** A summary has each representation once, with the quantizers of that representation and no others, the most frequent first; the counts add up to the number of quantizers. -/
theorem summary_spec {κ : Type} [DecidableEq κ] (repr : String → κ) (names : List String) :
    ((summarize repr names).map Prod.fst).Nodup ∧ (∀ k x, (∃ vs, (k, vs) ∈ summarize repr names ∧ x ∈ vs) ↔ x ∈ names ∧ k = repr x) ∧
    ((summarize repr names).map fun e => e.2.length).sum = names.length ∧ (summarize repr names).Pairwise fun a b => b.2.length ≤ a.2.length := by
  have hp : (summarize repr names).Perm (groupBy repr [] names) := by simpa [summarize] using sortBig_perm (groupBy repr [] names) []
  obtain ⟨h1, h2, h3⟩ := groupBy_spec repr names [] (by simp)
  refine ⟨(hp.map Prod.fst).nodup_iff.2 h1, fun k x => ?_, ?_, sortBig_desc _ [] (by simp [Descending])⟩
  · have := h3 k x
    simp only [List.not_mem_nil, false_and, exists_false, false_or] at this
    rw [← this]
    constructor
    · rintro ⟨vs, h, hx⟩; exact ⟨vs, hp.mem_iff.1 h, hx⟩
    · rintro ⟨vs, h, hx⟩; exact ⟨vs, hp.mem_iff.2 h, hx⟩
  · have e : ((summarize repr names).map fun e => e.2.length).sum = total (groupBy repr [] names) := (hp.map _).sum_eq
    rw [e, h2]
    simp [total]

/-- **C124.** The counts of the patterns that stand for several names add up to the number of names. -/
theorem dedup_counts (isNumber : String → Bool) (split : String → List String) (names : List String) : ((dedup isNumber split names).map Prod.snd).sum = names.length := by
  have hp : (sortBig [] (groupBy (fun n => wild isNumber (split n)) [] names)).Perm (groupBy (fun n => wild isNumber (split n)) [] names) := by
    simpa using sortBig_perm (groupBy (fun n => wild isNumber (split n)) [] names) []
  obtain ⟨_, h2, _⟩ := groupBy_spec (fun n => wild isNumber (split n)) names [] (by simp)
  have e : (dedup isNumber split names).map Prod.snd = (sortBig [] (groupBy (fun n => wild isNumber (split n)) [] names)).map fun e => e.2.length := by
    unfold dedup
    rw [List.map_map]
    apply List.map_congr_left
    intro g _
    simp only [Function.comp]
    split
    · rename_i n hn; rw [hn]; rfl
    · rfl
  rw [e, (hp.map _).sum_eq]
  have : total (groupBy (fun n => wild isNumber (split n)) [] names) = names.length := by rw [h2]; simp [total]
  exact this

/-- **C124.** The entries of the saved state are the parameters of the quantizers, each named by a path that leads to it; every quantizer other than a stub is saved with all its parameters. -/
theorem state_saved (params : ℕ → List String) (m : Mod) (hs : Shared m) (hne : ∀ p x, At m p x → "" ∉ p) :
    (∀ key ∈ stateKeys params m, ∃ r x p, At m r x ∧ x.kind = .quantizer ∧ p ∈ params x.id ∧ key = join (r ++ [p])) ∧
    (∀ q x, At m q x → x.kind = .quantizer → ∃ r, At m r x ∧ ∀ p ∈ params x.id, join (r ++ [p]) ∈ stateKeys params m) := by
  obtain ⟨_, h2, h3⟩ := each_once m hs true
  constructor
  · intro key hk
    unfold stateKeys namedQuantizers at hk
    obtain ⟨e, he, hk⟩ := List.mem_flatMap.1 hk
    obtain ⟨⟨r, x⟩, hx, rfl⟩ := List.mem_map.1 he
    obtain ⟨p, hp, rfl⟩ := List.mem_map.1 hk
    obtain ⟨ha, hl⟩ := h2 r x hx
    refine ⟨r, x, p, ha, ?_, hp, key_eq r p (hne r x ha)⟩
    rcases hl with hl | ⟨_, hl⟩
    · exact hl
    · cases hl
  · intro q x hq hk
    obtain ⟨r, hr⟩ := h3 q x hq (.inl hk)
    have ha := (h2 r x hr).1
    refine ⟨r, ha, fun p hp => ?_⟩
    unfold stateKeys namedQuantizers
    refine List.mem_flatMap.2 ⟨_, List.mem_map.2 ⟨(r, x), hr, rfl⟩, List.mem_map.2 ⟨p, hp, key_eq r p (hne r x ha)⟩⟩

/-- **C124.** Each name is covered by an entry: itself, if no other name differs from it only in numbers, or else its pattern, which has brackets for the numbers and counts the names of that form. -/
theorem dedup_patterns (isNumber : String → Bool) (split : String → List String) (names : List String) (x : String) (hx : x ∈ names) :
    let same := names.filter fun y => (split y).map (fun p => if isNumber p then none else some p) = (split x).map fun p => if isNumber p then none else some p
    (same = [x] ∧ (x, 1) ∈ dedup isNumber split names) ∨
      (2 ≤ same.length ∧ (join ((split x).map fun p => if isNumber p then "[]" else p), same.length) ∈ dedup isNumber split names) := by
  intro same
  have hp : (sortBig [] (groupBy (fun n => wild isNumber (split n)) [] names)).Perm (groupBy (fun n => wild isNumber (split n)) [] names) := by
    simpa using sortBig_perm (groupBy (fun n => wild isNumber (split n)) [] names) []
  obtain ⟨_, _, h3⟩ := groupBy_spec (fun n => wild isNumber (split n)) names [] (by simp)
  obtain ⟨vs, hv, hxv⟩ := (h3 (wild isNumber (split x)) x).2 (.inr ⟨hx, rfl⟩)
  obtain ⟨us, hu, e⟩ := groupBy_group (fun n => wild isNumber (split n)) names [] (by simp) _ _ hv
  have hu' : us = [] := by
    rcases hu with hu | ⟨hu, _⟩
    · cases hu
    · exact hu
  have e' : vs = same := by rw [e, hu']; rfl
  have hmem := hp.mem_iff.2 hv
  have hj : (wild isNumber (split x)).map (fun p => p.getD "[]") = (split x).map fun p => if isNumber p then "[]" else p := by
    unfold wild
    rw [List.map_map]
    apply List.map_congr_left
    intro p _
    simp only [Function.comp]
    split <;> rfl
  rw [← e']
  match hvs : vs with
  | [] => cases hxv
  | [y] =>
    left
    cases List.mem_singleton.1 hxv
    exact ⟨rfl, List.mem_map.2 ⟨_, hmem, rfl⟩⟩
  | y :: z :: r =>
    right
    refine ⟨by simp, List.mem_map.2 ⟨_, hmem, ?_⟩⟩
    simp only [hj]

/-! ### Deviations -/

/-- **C124, deviation.** Without recursion duplicates are removed even if that is not asked for: the second name of a shared quantizer is missing. -/
theorem second_name_missing (i j : ℕ) (rd s : Bool) :
    namedQuantizers (.mk i .plain [("a", .mk j .quantizer []), ("b", .mk j .quantizer [])]) "" false rd s = [("a", j)] := by
  simp [namedQuantizers, found, kids, listed, Mod.children, Mod.id, Mod.kind, prefixed, join]

/-- **C124, deviation.** If the module is a quantizer itself, its name with a prefix ends with a dot. -/
theorem trailing_dot (i : ℕ) (pre : String) (hp : pre ≠ "") (rd s : Bool) : namedQuantizers (.mk i .quantizer []) pre true rd s = [(pre ++ "." ++ "", i)] := by
  simp [namedQuantizers, found, walk, walkAll, listed, Mod.id, Mod.kind, prefixed, join, hp]

/-- **C124, deviation.** The state of a shared quantizer is saved under its first name only, although the model has it under both: loaded into a model that does not share it, the second quantizer is
not set. -/
theorem shared_saved_once (i j : ℕ) (hij : j ≠ i) (params : ℕ → List String) :
    stateKeys params (.mk i .plain [("a", .mk j .quantizer []), ("b", .mk j .quantizer [])]) = (params j).map fun p => "a" ++ "." ++ p := by
  by_cases h : j = i
  · exact absurd h hij
  · simp [stateKeys, namedQuantizers, found, walk, walkAll, listed, Mod.id, Mod.kind, prefixed, join, h]

/-! ### Concrete cases -/

/-- A model with a block that is used twice. -/
def exBlock : Mod := .mk 2 .plain [("q", .mk 3 .quantizer []), ("s", .mk 4 .stub [])]

def exModel : Mod := .mk 1 .plain [("x", exBlock), ("y", exBlock), ("w", .mk 5 .quantizer [])]

example : namedQuantizers exModel "" true true true = [("x.q", 3), ("w", 5)] := by decide +kernel

example : namedQuantizers exModel "m" true false false = [("m.x.q", 3), ("m.x.s", 4), ("m.y.q", 3), ("m.y.s", 4), ("m.w", 5)] := by decide +kernel

example : summarize (fun n => n.startsWith "l") ["a", "l.0", "b", "l.1", "l.2"] = [(true, ["l.0", "l.1", "l.2"]), (false, ["a", "b"])] := by decide +kernel

example : dedup (fun p => p = "0" ∨ p = "1") (fun n => if n = "l.0.q" then ["l", "0", "q"] else if n = "l.1.q" then ["l", "1", "q"] else [n]) ["a", "l.0.q", "l.1.q"] = [("l.[].q", 2), ("a", 1)] := by decide +kernel

/-- In a model without shared modules `Shared` and `Names` hold. -/
example : Names (.mk 1 .plain [("a", .mk 2 .quantizer []), ("b", .mk 3 .stub [])]) := by
  intro p a h
  rcases at_mk h with ⟨_, rfl⟩ | ⟨n, c, q, _, hc, hq⟩
  · simp [Mod.children]
  · simp only [List.mem_cons, Prod.mk.injEq, List.not_mem_nil, or_false] at hc
    rcases hc with ⟨_, rfl⟩ | ⟨_, rfl⟩ <;> rcases at_mk hq with ⟨_, rfl⟩ | ⟨_, _, _, _, hc, _⟩ <;> first | (cases hc; done) | simp [Mod.children]

example : Shared (.mk 1 .plain [("a", .mk 2 .quantizer []), ("b", .mk 2 .quantizer [])]) := by
  have h : ∀ p a, At (.mk 1 .plain [("a", .mk 2 .quantizer []), ("b", .mk 2 .quantizer [])]) p a → a = .mk 1 .plain [("a", .mk 2 .quantizer []), ("b", .mk 2 .quantizer [])] ∨ a = .mk 2 .quantizer [] := by
    intro p a h
    rcases at_mk h with ⟨_, rfl⟩ | ⟨n, c, q, _, hc, hq⟩
    · exact .inl rfl
    · simp only [List.mem_cons, Prod.mk.injEq, List.not_mem_nil, or_false] at hc
      rcases hc with ⟨_, rfl⟩ | ⟨_, rfl⟩ <;> rcases at_mk hq with ⟨_, rfl⟩ | ⟨_, _, _, _, hc, _⟩ <;> first | exact .inr rfl | cases hc
  intro p q a b ha hb he
  rcases h p a ha with rfl | rfl <;> rcases h q b hb with rfl | rfl <;> first | rfl | simp [Mod.id] at he

end FF.Listing
