import Mathlib.Data.List.Basic
import Mathlib.Data.List.Nodup
import Mathlib.Data.List.Dedup
import Mathlib.Data.Nat.Notation

/-!
# Which quantized classes model conversion finds

Models `QuantizedModule.__init_subclass__`, `_record_quantized_module`, `quantized_module_map`, `filter_quantized_module_map`, `_is_allow_listed_quantized_module` and `_is_class_from_module` in
`/repo/src/fastforward/nn/quantized_module.py`. The model of `quantize_model` (`Verif.Nn.Convert`) takes the map they make as given.
-/

namespace FF.Registry

/-! ### Model -/

/-- A Python module name, as characters. -/
abbrev Name := List Char

/-- A class: its bases, all classes it derives from including itself (`__mro__`, of which only the members matter here), the Python module that `inspect.getmodule` finds for it, and whether it
was defined with `include_in_module_map`. -/
structure Cls where
  bases : List ℕ
  mro : List ℕ
  home : Option Name
  included : Bool
  deriving DecidableEq

/-- The classes defined so far, `torch.nn.Module` as number 0 and `QuantizedModule` as number 1; `_QUANTIZED_MODULE_MAP` as a list of pairs in the order of entry; the filter
`_QUANTIZED_MODULE_MAP_FILTER`; and what each thread remembers in its `filter_quantized_module_map` contexts (`current_filters`). -/
structure World where
  cls : List Cls
  reg : List (ℕ × ℕ)
  filter : Option (List Name)
  saved : ℕ → List (Option (List Name))

def torch : ℕ := 0
def quantized : ℕ := 1

/-- `__mro__`. -/
def mroOf (w : World) (c : ℕ) : List ℕ := match w.cls[c]? with
  | some k => k.mro
  | none => []

/-- `issubclass(b, torch.nn.Module) and not issubclass(b, QuantizedModule)`. -/
def isPlain (w : World) (b : ℕ) : Bool := !(mroOf w b).contains quantized && (mroOf w b).contains torch

/-- The `module_bases` that `_record_quantized_module` finds (99-114). -/
def moduleBases (w : World) (bases mro : List ℕ) : List ℕ :=
  let direct := bases.filter (isPlain w)
  if direct.isEmpty then mro.tail.filter fun b => isPlain w b && b != torch else direct

/-- `_record_quantized_module` (98-128). -/
def record (w : World) (id : ℕ) (bases mro : List ℕ) : List (ℕ × ℕ) := match moduleBases w bases mro with
  | [m] => w.reg ++ [(m, id)]
  | _ => w.reg

/-- What happens: a class is defined; a thread enters or leaves `with filter_quantized_module_map(…)`. -/
inductive Event where
  | define (bases : List ℕ) (home : Option Name) (included : Bool)
  | enter (t : ℕ) (modules : List Name)
  | leave (t : ℕ)

/-- Defining a class: `__init_subclass__` (177-191) runs for what derives from `QuantizedModule`. Bases must exist and be different. -/
def define (w : World) (bases : List ℕ) (home : Option Name) (included : Bool) : World :=
  if bases.Nodup ∧ ∀ b ∈ bases, b < w.cls.length then
    let id := w.cls.length
    let mro := id :: (bases.flatMap (mroOf w)).dedup
    { w with
      cls := w.cls ++ [⟨bases, mro, home, included⟩]
      reg := if (bases.flatMap (mroOf w)).contains quantized && included then record w id bases mro else w.reg }
  else w

def setSaved (s : ℕ → List (Option (List Name))) (t : ℕ) (l : List (Option (List Name))) : ℕ → List (Option (List Name)) := fun u => if u = t then l else s u

/-- One event; `filter_quantized_module_map` is 592-614: the filter is replaced, and set back to what it was whatever happens. -/
def step (w : World) : Event → World
  | .define bases home included => define w bases home included
  | .enter t ms => { w with filter := some ms, saved := setSaved w.saved t (w.filter :: w.saved t) }
  | .leave t => match w.saved t with
    | [] => w
    | f :: r => { w with filter := f, saved := setSaved w.saved t r }

def run (w : World) : List Event → World
  | [] => w
  | e :: es => run (step w e) es

def start : World := ⟨[⟨[], [0], none, true⟩, ⟨[0], [1, 0], none, true⟩], [], none, fun _ => []⟩

/-- `_is_class_from_module` (623-636): `class_module_name == module_name or class_module_name.startswith(module_name + ".")`. -/
def fromModule (home : Option Name) (m : Name) : Bool := match home with
  | none => false
  | some n => n == m || (m ++ ['.']).isPrefixOf n

/-- `_is_allow_listed_quantized_module` (617-620). -/
def allowed (w : World) (c : ℕ) : Bool := match w.filter with
  | none => true
  | some ms => ms.any (fromModule (w.cls[c]?.bind Cls.home))

/-- `quantized_module_map` (563-589), looked up for one class. -/
def lookup (w : World) (m : ℕ) : Option ℕ := (((w.reg.filter fun p => p.1 == m).map Prod.snd).filter (allowed w)).getLast?

/-! ### Specification -/

/-- A class derives from another. -/
inductive Derives (w : World) : ℕ → ℕ → Prop
  | self (a k) : w.cls[a]? = some k → Derives w a a
  | base (a k b c) : w.cls[a]? = some k → b ∈ k.bases → Derives w b c → Derives w a c

/-- A module class that is not quantized. -/
def Plain (w : World) (b : ℕ) : Prop := Derives w b 0 ∧ ¬ Derives w b 1

/-- `c` counts as the quantized version of `m`: it derives from `QuantizedModule`, was not opted out, and `m` is the only unquantized module class among its bases; or there is none among its bases
and `m` is the only one, apart from `torch.nn.Module`, that it derives from. -/
def Implements (w : World) (c m : ℕ) : Prop := ∃ k, w.cls[c]? = some k ∧ k.included = true ∧ Derives w c 1 ∧ 2 ≤ c ∧
  ((m ∈ k.bases ∧ Plain w m ∧ ∀ b ∈ k.bases, Plain w b → b = m) ∨
   ((∀ b ∈ k.bases, ¬ Plain w b) ∧ m ≠ 0 ∧ Derives w c m ∧ Plain w m ∧ ∀ b, Derives w c b → Plain w b → b ≠ 0 → b = m))

/-- The name of a Python module, from its parts. -/
def spell : List Name → Name
  | [] => []
  | [a] => a
  | a :: b :: r => a ++ '.' :: spell (b :: r)

/-- The class may be used: there is no filter, or its Python module is one of those in the filter or inside one. -/
def Allowed (w : World) (c : ℕ) : Prop := ∀ ms, w.filter = some ms → ∃ m ∈ ms, ∃ k n, w.cls[c]? = some k ∧ k.home = some n ∧ (n = m ∨ ∃ r, n = m ++ '.' :: r)

/-! ### Lemmas -/

/-- What holds at all times. -/
structure Inv (w : World) : Prop where
  two : 2 ≤ w.cls.length
  torch : ∃ k, w.cls[0]? = some k ∧ k.bases = []
  bases : ∀ (c : ℕ) (k : Cls), w.cls[c]? = some k → ∀ b ∈ k.bases, b < c
  bnodup : ∀ (c : ℕ) (k : Cls), w.cls[c]? = some k → k.bases.Nodup
  mro : ∀ (c : ℕ) (k : Cls), w.cls[c]? = some k → ∀ b, b ∈ k.mro ↔ Derives w c b
  reg : ∀ m c, (m, c) ∈ w.reg ↔ Implements w c m
  sorted : (w.reg.map Prod.snd).Pairwise (· < ·)

theorem derives_lt {w : World} {a b : ℕ} (h : Derives w a b) : a < w.cls.length := by
  cases h with
  | self _ k hk => exact (List.getElem?_eq_some_iff.1 hk).1
  | base _ k _ _ hk _ _ => exact (List.getElem?_eq_some_iff.1 hk).1

theorem derives_le {w : World} (hb : ∀ (c : ℕ) (k : Cls), w.cls[c]? = some k → ∀ b ∈ k.bases, b < c) {a b : ℕ} (h : Derives w a b) : b ≤ a := by
  induction h with
  | self => exact Nat.le_refl _
  | base a k b c hk hbm _ ih => exact Nat.le_of_lt (Nat.lt_of_le_of_lt ih (hb a k hk b hbm))

theorem derives_inv {w : World} {a c : ℕ} {k : Cls} (hk : w.cls[a]? = some k) (h : Derives w a c) : c = a ∨ ∃ b ∈ k.bases, Derives w b c := by
  cases h with
  | self => exact .inl rfl
  | base _ k' b _ hk' hb hd => rw [hk] at hk'; cases hk'; exact .inr ⟨b, hb, hd⟩

/-- Classes that exist do not change when one is added. -/
theorem derives_append {w w' : World} {k : Cls} (hw : w'.cls = w.cls ++ [k]) (hb : ∀ (c : ℕ) (k : Cls), w.cls[c]? = some k → ∀ b ∈ k.bases, b < c) : ∀ {a b : ℕ}, a < w.cls.length → (Derives w' a b ↔ Derives w a b) := by
  intro a
  induction a using Nat.strongRecOn with
  | _ a ih =>
    intro b ha
    have e : w'.cls[a]? = w.cls[a]? := by rw [hw, List.getElem?_append_left ha]
    constructor
    · intro h
      cases h with
      | self _ k' hk => exact .self _ k' (e ▸ hk)
      | base _ k' c _ hk hc hd =>
        have hk' : w.cls[a]? = some k' := e ▸ hk
        have hlt := hb a k' hk' c hc
        exact .base _ k' c _ hk' hc ((ih c hlt (Nat.lt_trans hlt ha)).1 hd)
    · intro h
      cases h with
      | self _ k' hk => exact .self _ k' (e.trans hk)
      | base _ k' c _ hk hc hd =>
        have hlt := hb a k' hk c hc
        exact .base _ k' c _ (e.trans hk) hc ((ih c hlt (Nat.lt_trans hlt ha)).2 hd)

theorem mroOf_iff {w : World} (h : Inv w) {a b : ℕ} : b ∈ mroOf w a ↔ Derives w a b := by
  unfold mroOf
  cases hk : w.cls[a]? with
  | some k => exact h.mro a k hk b
  | none =>
    constructor
    · intro hm; cases hm
    · intro hd
      have := derives_lt hd
      rw [List.getElem?_eq_none_iff] at hk
      omega

theorem isPlain_iff {w : World} (h : Inv w) {b : ℕ} : isPlain w b = true ↔ Plain w b := by
  unfold isPlain Plain
  simp only [Bool.and_eq_true, Bool.not_eq_true', List.contains_eq_mem, decide_eq_true_eq, decide_eq_false_iff_not, mroOf_iff h]
  exact and_comm

theorem plain_append {w w' : World} {k : Cls} (hw : w'.cls = w.cls ++ [k]) (hb : ∀ (c : ℕ) (k : Cls), w.cls[c]? = some k → ∀ b ∈ k.bases, b < c) {a : ℕ} (ha : a < w.cls.length) : Plain w' a ↔ Plain w a := by
  unfold Plain
  rw [derives_append hw hb ha, derives_append hw hb ha]

theorem implements_append {w w' : World} {k : Cls} (hw : w'.cls = w.cls ++ [k]) (hb : ∀ (c : ℕ) (k : Cls), w.cls[c]? = some k → ∀ b ∈ k.bases, b < c) {c m : ℕ} (hc : c < w.cls.length) :
    Implements w' c m ↔ Implements w c m := by
  have e : w'.cls[c]? = w.cls[c]? := by rw [hw, List.getElem?_append_left hc]
  unfold Implements
  rw [e]
  refine exists_congr fun k' => and_congr_right fun hk => and_congr_right fun _ => and_congr (derives_append hw hb hc) (and_congr_right fun _ => ?_)
  have pb : ∀ b ∈ k'.bases, (Plain w' b ↔ Plain w b) := fun b hbm => plain_append hw hb (Nat.lt_trans (hb c k' hk b hbm) hc)
  have pd : ∀ b, Derives w c b → (Plain w' b ↔ Plain w b) := fun b hd => plain_append hw hb (Nat.lt_of_le_of_lt (derives_le hb hd) hc)
  refine or_congr (and_congr_right fun hm => and_congr (pb m hm) (forall_congr' fun b => forall_congr' fun hbm => by rw [pb b hbm])) ?_
  refine and_congr (forall_congr' fun b => forall_congr' fun hbm => by rw [pb b hbm]) (and_congr_right fun _ => ?_)
  rw [derives_append hw hb hc]
  refine and_congr_right fun hm => and_congr (pd m hm) (forall_congr' fun b => ?_)
  rw [derives_append hw hb hc]
  exact forall_congr' fun hd => by rw [pd b hd]

/-- A list without repetitions that has exactly one element. -/
theorem singleton_iff {l : List ℕ} (hn : l.Nodup) {m : ℕ} : l = [m] ↔ m ∈ l ∧ ∀ b ∈ l, b = m := by
  constructor
  · rintro rfl; simp
  · rintro ⟨hm, hu⟩
    match l, hn, hm, hu with
    | [], _, hm, _ => cases hm
    | [a], _, _, hu => rw [hu a (List.mem_singleton.2 rfl)]
    | a :: b :: r, hn, _, hu =>
      have h1 := hu a (by simp)
      have h2 := hu b (by simp)
      simp only [List.nodup_cons, List.mem_cons, not_or] at hn
      exact absurd (h1.trans h2.symm) hn.1.1

theorem define_inv {w : World} (h : Inv w) (bases : List ℕ) (home : Option Name) (included : Bool) : Inv (define w bases home included) := by
  unfold define
  by_cases hc : bases.Nodup ∧ ∀ b ∈ bases, b < w.cls.length
  · rw [if_pos hc]
    obtain ⟨hnd, hlt⟩ := hc
    have two := h.two
    generalize hw : ({ w with
        cls := w.cls ++ [⟨bases, w.cls.length :: (bases.flatMap (mroOf w)).dedup, home, included⟩]
        reg := if (bases.flatMap (mroOf w)).contains quantized && included then record w w.cls.length bases (w.cls.length :: (bases.flatMap (mroOf w)).dedup) else w.reg } : World) = w'
    have hcls : w'.cls = w.cls ++ [⟨bases, w.cls.length :: (bases.flatMap (mroOf w)).dedup, home, included⟩] := by rw [← hw]
    have hreg : w'.reg = if (bases.flatMap (mroOf w)).contains quantized && included then record w w.cls.length bases (w.cls.length :: (bases.flatMap (mroOf w)).dedup) else w.reg := by rw [← hw]
    clear hw
    have old : ∀ {a}, a < w.cls.length → w'.cls[a]? = w.cls[a]? := fun ha => by rw [hcls, List.getElem?_append_left ha]
    have new : w'.cls[w.cls.length]? = some ⟨bases, w.cls.length :: (bases.flatMap (mroOf w)).dedup, home, included⟩ := by rw [hcls]; simp
    have cases_ : ∀ {c k}, w'.cls[c]? = some k → (c < w.cls.length ∧ w.cls[c]? = some k) ∨ (c = w.cls.length ∧ k = ⟨bases, w.cls.length :: (bases.flatMap (mroOf w)).dedup, home, included⟩) := by
      intro c k hk
      have hl := (List.getElem?_eq_some_iff.1 hk).1
      rw [hcls] at hl
      simp at hl
      rcases Nat.lt_or_eq_of_le (Nat.le_of_lt_succ hl) with hl | rfl
      · exact .inl ⟨hl, (old hl) ▸ hk⟩
      · rw [new] at hk; cases hk; exact .inr ⟨rfl, rfl⟩
    have da : ∀ {a b}, a < w.cls.length → (Derives w' a b ↔ Derives w a b) := fun ha => derives_append hcls h.bases ha
    have mem_dedup : ∀ b, b ∈ (bases.flatMap (mroOf w)).dedup ↔ ∃ x ∈ bases, Derives w x b := by
      intro b
      rw [List.mem_dedup, List.mem_flatMap]
      exact exists_congr fun x => and_congr_right fun _ => mroOf_iff h
    have dnew : ∀ b, Derives w' w.cls.length b ↔ b = w.cls.length ∨ ∃ x ∈ bases, Derives w x b := by
      intro b
      constructor
      · intro hd
        rcases derives_inv new hd with h1 | ⟨x, hx, hd⟩
        · exact .inl h1
        · exact .inr ⟨x, hx, (da (hlt x hx)).1 hd⟩
      · rintro (rfl | ⟨x, hx, hd⟩)
        · exact .self _ _ new
        · exact .base _ _ x _ new hx ((da (hlt x hx)).2 hd)
    have qiff : (bases.flatMap (mroOf w)).contains quantized = true ↔ Derives w' w.cls.length 1 := by
      rw [List.contains_eq_mem, decide_eq_true_eq, ← List.mem_dedup, mem_dedup, dnew]
      constructor
      · exact .inr
      · rintro (he | he)
        · omega
        · exact he
    have pa : ∀ {a}, a < w.cls.length → (Plain w' a ↔ Plain w a) := fun ha => plain_append hcls h.bases ha
    have dlt : ∀ {b}, (∃ x ∈ bases, Derives w x b) → b < w.cls.length := by
      rintro b ⟨x, hx, hd⟩
      exact Nat.lt_of_le_of_lt (derives_le h.bases hd) (hlt x hx)
    -- what is recorded
    have inew : ∀ m, Implements w' w.cls.length m ↔ ((bases.flatMap (mroOf w)).contains quantized && included) = true ∧ moduleBases w bases (w.cls.length :: (bases.flatMap (mroOf w)).dedup) = [m] := by
      intro m
      have hmb : Derives w' w.cls.length 1 → (moduleBases w bases (w.cls.length :: (bases.flatMap (mroOf w)).dedup) = [m] ↔
          ((m ∈ bases ∧ Plain w' m ∧ ∀ b ∈ bases, Plain w' b → b = m) ∨
            ((∀ b ∈ bases, ¬ Plain w' b) ∧ m ≠ 0 ∧ Derives w' w.cls.length m ∧ Plain w' m ∧ ∀ b, Derives w' w.cls.length b → Plain w' b → b ≠ 0 → b = m))) := by
        intro hq
        unfold moduleBases
        by_cases hd : (bases.filter (isPlain w)).isEmpty
        · simp only [hd, if_true]
          have hno : ∀ b ∈ bases, ¬ Plain w' b := by
            intro b hb hp
            have : b ∈ bases.filter (isPlain w) := List.mem_filter.2 ⟨hb, (isPlain_iff h).2 ((pa (hlt b hb)).1 hp)⟩
            rw [List.isEmpty_iff.1 hd] at this
            cases this
          rw [List.tail_cons, singleton_iff ((List.nodup_dedup _).filter _)]
          have hmem : ∀ b, b ∈ (bases.flatMap (mroOf w)).dedup.filter (fun b => isPlain w b && b != torch) ↔ Derives w' w.cls.length b ∧ Plain w' b ∧ b ≠ 0 := by
            intro b
            rw [List.mem_filter, mem_dedup, Bool.and_eq_true, isPlain_iff h, dnew]
            constructor
            · rintro ⟨h1, h2, h3⟩
              exact ⟨.inr h1, (pa (dlt h1)).2 h2, by simpa [torch] using h3⟩
            · rintro ⟨h1, h2, h3⟩
              rcases h1 with rfl | h1
              · exact absurd hq h2.2
              · exact ⟨h1, (pa (dlt h1)).1 h2, by simpa [torch] using h3⟩
          constructor
          · rintro ⟨h1, h2⟩
            obtain ⟨g1, g2, g3⟩ := (hmem m).1 h1
            exact .inr ⟨hno, g3, g1, g2, fun b hb hp hz => h2 b ((hmem b).2 ⟨hb, hp, hz⟩)⟩
          · rintro (⟨h1, h2, _⟩ | ⟨_, g3, g1, g2, g4⟩)
            · exact absurd h2 (hno m h1)
            · refine ⟨(hmem m).2 ⟨g1, g2, g3⟩, fun b hb => ?_⟩
              obtain ⟨a1, a2, a3⟩ := (hmem b).1 hb
              exact g4 b a1 a2 a3
        · simp only [hd]
          have hd' : ∃ b ∈ bases, Plain w' b := by
            cases hf : bases.filter (isPlain w) with
            | nil => rw [hf] at hd; simp at hd
            | cons b r =>
              have : b ∈ bases.filter (isPlain w) := by rw [hf]; exact List.mem_cons_self ..
              obtain ⟨g1, g2⟩ := List.mem_filter.1 this
              exact ⟨b, g1, (pa (hlt b g1)).2 ((isPlain_iff h).1 g2)⟩
          have hmem : ∀ b, b ∈ bases.filter (isPlain w) ↔ b ∈ bases ∧ Plain w' b := by
            intro b
            rw [List.mem_filter]
            exact and_congr_right fun hb => by rw [isPlain_iff h, pa (hlt b hb)]
          have : (if False then (w.cls.length :: (bases.flatMap (mroOf w)).dedup).tail.filter (fun b => isPlain w b && b != torch) else bases.filter (isPlain w)) = bases.filter (isPlain w) := if_neg (fun h => h)
          simp only [Bool.false_eq_true, if_false]
          rw [singleton_iff (hnd.filter _)]
          constructor
          · rintro ⟨h1, h2⟩
            obtain ⟨g1, g2⟩ := (hmem m).1 h1
            exact .inl ⟨g1, g2, fun b hb hp => h2 b ((hmem b).2 ⟨hb, hp⟩)⟩
          · rintro (⟨h1, h2, h3⟩ | ⟨h1, _⟩)
            · refine ⟨(hmem m).2 ⟨h1, h2⟩, fun b hb => ?_⟩
              obtain ⟨g1, g2⟩ := (hmem b).1 hb
              exact h3 b g1 g2
            · obtain ⟨b, hb, hp⟩ := hd'
              exact absurd hp (h1 b hb)
      unfold Implements
      rw [new, Bool.and_eq_true, qiff]
      constructor
      · rintro ⟨k, hk, hi, hq, _, hr⟩
        cases hk
        exact ⟨⟨hq, hi⟩, (hmb hq).2 hr⟩
      · rintro ⟨⟨hq, hi⟩, hr⟩
        exact ⟨_, rfl, hi, hq, two, (hmb hq).1 hr⟩
    have rnew : ∀ m c, (m, c) ∈ w'.reg ↔ (m, c) ∈ w.reg ∨ (c = w.cls.length ∧ Implements w' w.cls.length m) := by
      intro m c
      rw [hreg, inew m]
      by_cases hq : ((bases.flatMap (mroOf w)).contains quantized && included) = true
      · rw [if_pos hq]
        unfold record
        split
        · rename_i m' hm'
          rw [List.mem_append, List.mem_singleton, Prod.mk.injEq, hm']
          constructor
          · rintro (h1 | ⟨rfl, rfl⟩)
            · exact .inl h1
            · exact .inr ⟨rfl, hq, rfl⟩
          · rintro (h1 | ⟨rfl, _, h2⟩)
            · exact .inl h1
            · cases h2; exact .inr ⟨rfl, rfl⟩
        · rename_i hne
          constructor
          · exact .inl
          · rintro (h1 | ⟨_, _, h2⟩)
            · exact h1
            · exact absurd h2 (hne m)
      · rw [if_neg hq]
        constructor
        · exact .inl
        · rintro (h1 | ⟨_, h2, _⟩)
          · exact h1
          · exact absurd h2 hq
    have reglt : ∀ m c, (m, c) ∈ w.reg → c < w.cls.length := by
      intro m c hm
      obtain ⟨k, hk, _⟩ := (h.reg m c).1 hm
      exact (List.getElem?_eq_some_iff.1 hk).1
    refine ⟨?_, ?_, ?_, ?_, ?_, ?_, ?_⟩
    · rw [hcls]; simp; omega
    · obtain ⟨k, hk, hb⟩ := h.torch
      exact ⟨k, (old (by omega)).trans hk, hb⟩
    · intro c k hk b hb
      rcases cases_ hk with ⟨_, hk⟩ | ⟨rfl, rfl⟩
      · exact h.bases c k hk b hb
      · exact hlt b hb
    · intro c k hk
      rcases cases_ hk with ⟨_, hk⟩ | ⟨_, rfl⟩
      · exact h.bnodup c k hk
      · exact hnd
    · intro c k hk b
      rcases cases_ hk with ⟨hl, hk⟩ | ⟨rfl, rfl⟩
      · rw [h.mro c k hk b, da hl]
      · rw [List.mem_cons, mem_dedup, dnew]
    · intro m c
      rw [rnew]
      by_cases hl : c < w.cls.length
      · rw [implements_append hcls h.bases hl, h.reg]
        constructor
        · rintro (h1 | ⟨rfl, _⟩)
          · exact h1
          · omega
        · exact .inl
      · constructor
        · rintro (h1 | ⟨rfl, h1⟩)
          · exact absurd (reglt m c h1) hl
          · exact h1
        · intro h1
          have : c = w.cls.length := by
            obtain ⟨k, hk, _⟩ := h1
            rcases cases_ hk with ⟨hl', _⟩ | ⟨e, _⟩
            · exact absurd hl' hl
            · exact e
          subst this
          exact .inr ⟨rfl, h1⟩
    · rw [hreg]
      split
      · unfold record
        split
        · rw [List.map_append]
          refine List.pairwise_append.2 ⟨h.sorted, by simp, ?_⟩
          intro a ha b hb
          obtain ⟨⟨m, c⟩, hp, rfl⟩ := List.mem_map.1 ha
          simp only [List.map_cons, List.map_nil, List.mem_singleton] at hb
          subst hb
          exact reglt m c hp
        · exact h.sorted
      · exact h.sorted
  · rw [if_neg hc]; exact h

/-- The filter plays no part in what is recorded. -/
theorem derives_congr {w w' : World} (hc : w'.cls = w.cls) {a b : ℕ} : Derives w' a b ↔ Derives w a b := by
  constructor
  · intro h
    induction h with
    | self a k hk => exact .self a k (hc ▸ hk)
    | base a k b c hk hb _ ih => exact .base a k b c (hc ▸ hk) hb ih
  · intro h
    induction h with
    | self a k hk => exact .self a k (hc.symm ▸ hk)
    | base a k b c hk hb _ ih => exact .base a k b c (hc.symm ▸ hk) hb ih

theorem implements_congr {w w' : World} (hc : w'.cls = w.cls) {c m : ℕ} : Implements w' c m ↔ Implements w c m := by
  unfold Implements Plain
  simp only [derives_congr hc, hc]

theorem inv_congr {w w' : World} (h : Inv w) (hc : w'.cls = w.cls) (hr : w'.reg = w.reg) : Inv w' := by
  refine ⟨hc ▸ h.two, hc ▸ h.torch, hc ▸ h.bases, hc ▸ h.bnodup, ?_, ?_, hr ▸ h.sorted⟩
  · intro c k hk b
    rw [derives_congr hc, h.mro c k (hc ▸ hk) b]
  · intro m c
    rw [hr, h.reg, implements_congr hc]

theorem step_inv {w : World} (h : Inv w) (e : Event) : Inv (step w e) := by
  cases e with
  | define b n i => exact define_inv h b n i
  | enter t ms => exact inv_congr h rfl rfl
  | leave t =>
    rw [step]
    split
    · exact h
    · exact inv_congr h rfl rfl

theorem start_derives {a b : ℕ} : Derives start a b ↔ (a = 0 ∧ b = 0) ∨ (a = 1 ∧ (b = 1 ∨ b = 0)) := by
  have h0 : start.cls[0]? = some ⟨[], [0], none, true⟩ := rfl
  have h1 : start.cls[1]? = some ⟨[0], [1, 0], none, true⟩ := rfl
  have d0 : ∀ b, Derives start 0 b ↔ b = 0 := fun b => by
    constructor
    · intro h
      rcases derives_inv h0 h with h | ⟨x, hx, _⟩
      · exact h
      · cases hx
    · rintro rfl; exact .self _ _ h0
  constructor
  · intro h
    have hl := derives_lt h
    have hl' : a < 2 := hl
    rcases (by omega : a = 0 ∨ a = 1) with rfl | rfl
    · exact .inl ⟨rfl, (d0 b).1 h⟩
    · rcases derives_inv h1 h with h | ⟨x, hx, hd⟩
      · exact .inr ⟨rfl, .inl h⟩
      · cases List.mem_singleton.1 hx
        exact .inr ⟨rfl, .inr ((d0 b).1 hd)⟩
  · rintro (⟨rfl, rfl⟩ | ⟨rfl, rfl | rfl⟩)
    · exact .self _ _ h0
    · exact .self _ _ h1
    · exact .base _ _ 0 _ h1 (List.mem_singleton.2 rfl) (.self _ _ h0)

theorem start_cls {c : ℕ} {k : Cls} (h : start.cls[c]? = some k) : (c = 0 ∧ k = ⟨[], [0], none, true⟩) ∨ (c = 1 ∧ k = ⟨[0], [1, 0], none, true⟩) := by
  have hl : c < 2 := (List.getElem?_eq_some_iff.1 h).1
  rcases (by omega : c = 0 ∨ c = 1) with rfl | rfl
  · cases h; exact .inl ⟨rfl, rfl⟩
  · cases h; exact .inr ⟨rfl, rfl⟩

theorem start_inv : Inv start := by
  refine ⟨Nat.le_refl _, ⟨_, rfl, rfl⟩, ?_, ?_, ?_, ?_, by simp [start]⟩
  · intro c k hk b hb
    rcases start_cls hk with ⟨rfl, rfl⟩ | ⟨rfl, rfl⟩
    · cases hb
    · cases List.mem_singleton.1 hb; omega
  · intro c k hk
    rcases start_cls hk with ⟨rfl, rfl⟩ | ⟨rfl, rfl⟩ <;> simp
  · intro c k hk b
    rw [start_derives]
    rcases start_cls hk with ⟨rfl, rfl⟩ | ⟨rfl, rfl⟩ <;> simp
  · intro m c
    constructor
    · intro h; cases h
    · rintro ⟨k, hk, _, _, h2, _⟩
      rcases start_cls hk with ⟨rfl, _⟩ | ⟨rfl, _⟩ <;> omega

theorem run_inv {w : World} (h : Inv w) : ∀ es, Inv (run w es) := by
  intro es
  induction es generalizing w with
  | nil => exact h
  | cons e es ih => exact ih (step_inv h e)

theorem allowed_iff (w : World) (c : ℕ) : allowed w c = true ↔ Allowed w c := by
  unfold allowed Allowed
  cases hf : w.filter with
  | none => simp
  | some ms =>
    simp only [List.any_eq_true, Option.some.injEq, forall_eq']
    refine exists_congr fun m => and_congr_right fun _ => ?_
    cases hk : w.cls[c]? with
    | none => simp [fromModule]
    | some k =>
      cases hh : k.home with
      | none => simp [fromModule, hh]
      | some n =>
        simp only [Option.bind_some, hh, fromModule, Bool.or_eq_true, beq_iff_eq, List.isPrefixOf_iff_prefix, Option.some.injEq, ↓existsAndEq, true_and]
        refine or_congr Iff.rfl ⟨?_, ?_⟩
        · rintro ⟨r, hr⟩; exact ⟨r, by rw [← hr]; simp⟩
        · rintro ⟨r, hr⟩; exact ⟨r, by rw [hr]; simp⟩

theorem getLast_sorted {l : List ℕ} (hs : l.Pairwise (· < ·)) {c : ℕ} : l.getLast? = some c ↔ c ∈ l ∧ ∀ d ∈ l, d ≤ c := by
  induction l with
  | nil => simp
  | cons a l ih =>
    have hp := List.pairwise_cons.1 hs
    cases l with
    | nil =>
      simp only [List.getLast?_singleton, Option.some.injEq, List.mem_singleton, forall_eq]
      constructor
      · rintro rfl; exact ⟨rfl, Nat.le_refl _⟩
      · rintro ⟨h, _⟩; exact h.symm
    | cons b r =>
      rw [List.getLast?_cons_cons, ih hp.2]
      constructor
      · rintro ⟨h1, h2⟩
        refine ⟨List.mem_cons_of_mem _ h1, fun d hd => ?_⟩
        rcases List.mem_cons.1 hd with rfl | hd
        · exact Nat.le_of_lt (hp.1 c h1)
        · exact h2 d hd
      · rintro ⟨h1, h2⟩
        rcases List.mem_cons.1 h1 with rfl | h1
        · have := h2 b (by simp)
          have := hp.1 b (by simp)
          omega
        · exact ⟨h1, fun d hd => h2 d (List.mem_cons_of_mem _ hd)⟩

theorem lookup_iff {w : World} (h : Inv w) (m c : ℕ) : lookup w m = some c ↔ (Implements w c m ∧ Allowed w c) ∧ ∀ d, Implements w d m → Allowed w d → d ≤ c := by
  have hsub : (((w.reg.filter fun p => p.1 == m).map Prod.snd).filter (allowed w)).Sublist (w.reg.map Prod.snd) := List.filter_sublist.trans (List.filter_sublist.map _)
  have hmem : ∀ d, d ∈ ((w.reg.filter fun p => p.1 == m).map Prod.snd).filter (allowed w) ↔ Implements w d m ∧ Allowed w d := by
    intro d
    rw [List.mem_filter, allowed_iff, List.mem_map]
    refine and_congr ⟨?_, fun hi => ⟨(m, d), List.mem_filter.2 ⟨(h.reg m d).2 hi, by simp⟩, rfl⟩⟩ Iff.rfl
    rintro ⟨⟨m', d'⟩, h1, rfl⟩
    obtain ⟨h3, h2⟩ := List.mem_filter.1 h1
    have h2' : m' = m := by simpa using h2
    exact (h.reg m d').1 (h2' ▸ h3)
  unfold lookup
  rw [getLast_sorted (h.sorted.sublist hsub), hmem]
  exact and_congr_right fun _ => ⟨fun g d h1 h2 => g d ((hmem d).2 ⟨h1, h2⟩), fun g d hd => g d ((hmem d).1 hd).1 ((hmem d).1 hd).2⟩

/-- Parts of names have no dots. -/
theorem dot_split : ∀ {a b x y : Name}, '.' ∉ a → '.' ∉ b → a ++ '.' :: x = b ++ '.' :: y → a = b ∧ x = y
  | [], [], x, y, _, _, h => by simpa using h
  | [], c :: b, x, y, _, hb, h => by
    simp only [List.nil_append, List.cons_append, List.cons.injEq] at h
    exact absurd (h.1 ▸ List.mem_cons_self ..) hb
  | c :: a, [], x, y, ha, _, h => by
    simp only [List.nil_append, List.cons_append, List.cons.injEq] at h
    exact absurd (h.1 ▸ List.mem_cons_self ..) ha
  | c :: a, d :: b, x, y, ha, hb, h => by
    simp only [List.cons_append, List.cons.injEq] at h
    obtain ⟨h1, h2⟩ := dot_split (fun hm => ha (List.mem_cons_of_mem _ hm)) (fun hm => hb (List.mem_cons_of_mem _ hm)) h.2
    exact ⟨by rw [h.1, h1], h2⟩

theorem spell_inside : ∀ (m n : List Name), m ≠ [] → n ≠ [] → (∀ a ∈ m, '.' ∉ a) → (∀ a ∈ n, '.' ∉ a) → ((spell n = spell m ∨ ∃ r, spell n = spell m ++ '.' :: r) ↔ m <+: n)
  | [], _, h, _, _, _ => absurd rfl h
  | _, [], _, h, _, _ => absurd rfl h
  | [a], [b], _, _, hm, hn => by
    have hb : '.' ∉ b := hn b (by simp)
    simp only [spell, List.cons_prefix_cons, List.prefix_refl, and_true]
    constructor
    · rintro (h | ⟨r, h⟩)
      · exact h.symm
      · exact absurd (h ▸ (by simp)) hb
    · rintro rfl; exact .inl rfl
  | [a], b :: c :: n, _, _, hm, hn => by
    have ha : '.' ∉ a := hm a (by simp)
    have hb : '.' ∉ b := hn b (by simp)
    simp only [spell, List.cons_prefix_cons, List.nil_prefix, and_true]
    constructor
    · rintro (h | ⟨r, h⟩)
      · exact absurd (h ▸ (by simp)) ha
      · exact (dot_split hb ha h).1.symm
    · rintro rfl; exact .inr ⟨_, rfl⟩
  | a :: a' :: m, [b], _, _, hm, hn => by
    have hb : '.' ∉ b := hn b (by simp)
    simp only [spell, List.cons_prefix_cons]
    constructor
    · rintro (h | ⟨r, h⟩)
      · exact absurd (h ▸ (by simp)) hb
      · exact absurd (h ▸ (by simp)) hb
    · rintro ⟨_, h⟩; simp at h
  | a :: a' :: m, b :: b' :: n, _, _, hm, hn => by
    have ha : '.' ∉ a := hm a (by simp)
    have hb : '.' ∉ b := hn b (by simp)
    have ih := spell_inside (a' :: m) (b' :: n) (by simp) (by simp) (fun x hx => hm x (List.mem_cons_of_mem _ hx)) (fun x hx => hn x (List.mem_cons_of_mem _ hx))
    rw [List.cons_prefix_cons, ← ih, spell, spell]
    constructor
    · rintro (h | ⟨r, h⟩)
      · obtain ⟨h1, h2⟩ := dot_split hb ha h; exact ⟨h1.symm, .inl h2⟩
      · rw [List.append_assoc, List.cons_append] at h
        obtain ⟨h1, h2⟩ := dot_split hb ha h; exact ⟨h1.symm, .inr ⟨r, h2⟩⟩
    · rintro ⟨rfl, h | ⟨r, h⟩⟩
      · exact .inl (by rw [h])
      · exact .inr ⟨r, by rw [h]; simp⟩

theorem run_append (w : World) (a b : List Event) : run w (a ++ b) = run (run w a) b := by
  induction a generalizing w with
  | nil => rfl
  | cons e a ih => exact ih (step w e)

theorem define_filter (w : World) (b : List ℕ) (n : Option Name) (i : Bool) : (define w b n i).filter = w.filter ∧ (define w b n i).saved = w.saved := by
  unfold define
  split <;> exact ⟨rfl, rfl⟩

/-! ### Properties -/

/-- **C125 (partial).** After any history of class definitions and filters, the conversion found for a module class is the last defined class that counts as its quantized version and passes the filter.
Missing: what counts is narrower than documented, see `subclass_not_found`. -/
theorem latest_implementation_partial (es : List Event) (m c : ℕ) : lookup (run start es) m = some c ↔
    (Implements (run start es) c m ∧ Allowed (run start es) c) ∧ ∀ d, Implements (run start es) d m → Allowed (run start es) d → d ≤ c := lookup_iff (run_inv start_inv es) m c

/-- **C125.** If no class counts as the quantized version and passes the filter, none is found; otherwise one is. -/
theorem found_iff (es : List Event) (m : ℕ) : (lookup (run start es) m).isSome = true ↔ ∃ c, Implements (run start es) c m ∧ Allowed (run start es) c := by
  generalize hw : run start es = w
  have h : Inv w := hw ▸ run_inv start_inv es
  constructor
  · intro hs
    obtain ⟨c, hc⟩ := Option.isSome_iff_exists.1 hs
    exact ⟨c, ((lookup_iff h m c).1 hc).1⟩
  · rintro ⟨c, hc1, hc2⟩
    cases hl : lookup w m with
    | some _ => rfl
    | none =>
      unfold lookup at hl
      rw [List.getLast?_eq_none_iff] at hl
      have : c ∈ ((w.reg.filter fun p => p.1 == m).map Prod.snd).filter (allowed w) :=
        List.mem_filter.2 ⟨List.mem_map.2 ⟨(m, c), List.mem_filter.2 ⟨(h.reg m c).2 hc1, by simp⟩, rfl⟩, (allowed_iff w c).2 hc2⟩
      rw [hl] at this
      cases this

/-- **C125.** A converted module is still an instance of its old class, and is quantized: the class found derives from the class it replaces and from `QuantizedModule`, was not opted out, and what is
replaced is not quantized. -/
theorem conversion_sound (es : List Event) (m c : ℕ) (h : lookup (run start es) m = some c) :
    Derives (run start es) c m ∧ Derives (run start es) c 1 ∧ Derives (run start es) m 0 ∧ ¬ Derives (run start es) m 1 ∧ c ≠ m ∧ ∀ k, (run start es).cls[c]? = some k → k.included = true := by
  obtain ⟨⟨⟨k, hk, hi, hq, _, hr⟩, _⟩, _⟩ := (latest_implementation_partial es m c).1 h
  have hd : Derives (run start es) c m ∧ Plain (run start es) m := by
    rcases hr with ⟨h1, h2, _⟩ | ⟨_, _, h1, h2, _⟩
    · have hlt := derives_lt h2.1
      exact ⟨.base _ k m _ hk h1 (.self m _ (List.getElem?_eq_getElem hlt)), h2⟩
    · exact ⟨h1, h2⟩
  refine ⟨hd.1, hq, hd.2.1, hd.2.2, fun e => hd.2.2 (e ▸ hq), fun k' hk' => ?_⟩
  rw [hk] at hk'; cases hk'; exact hi

/-- **C125.** Defining a class changes the conversion only of the class it counts as the quantized version of. -/
theorem others_unchanged (es : List Event) (bases : List ℕ) (home : Option Name) (included : Bool) (m : ℕ)
    (hm : ¬ Implements (run start (es ++ [.define bases home included])) (run start es).cls.length m) :
    lookup (run start (es ++ [.define bases home included])) m = lookup (run start es) m := by
  rw [run_append] at hm ⊢
  have h : Inv (run start es) := run_inv start_inv es
  generalize run start es = w at *
  show lookup (define w bases home included) m = _
  have hm : ¬ Implements (define w bases home included) w.cls.length m := hm
  have h' : Inv (define w bases home included) := define_inv h _ _ _
  by_cases hc : bases.Nodup ∧ ∀ b ∈ bases, b < w.cls.length
  · have hcls : (define w bases home included).cls = w.cls ++ [⟨bases, w.cls.length :: (bases.flatMap (mroOf w)).dedup, home, included⟩] := by rw [define, if_pos hc]
    have hfil := (define_filter w bases home included).1
    generalize define w bases home included = w' at *
    have himp : ∀ d, Implements w' d m ↔ Implements w d m := by
      intro d
      by_cases hd : d < w.cls.length
      · exact implements_append hcls h.bases hd
      · constructor
        · intro hi
          obtain ⟨k, hk, _⟩ := id hi
          have hl := (List.getElem?_eq_some_iff.1 hk).1
          rw [hcls] at hl
          simp at hl
          have : d = w.cls.length := by omega
          exact absurd (this ▸ hi) hm
        · rintro ⟨k, hk, _⟩
          exact absurd (List.getElem?_eq_some_iff.1 hk).1 hd
    have hall : ∀ d, Implements w d m → (Allowed w' d ↔ Allowed w d) := by
      rintro d ⟨k, hk, _⟩
      have hd := (List.getElem?_eq_some_iff.1 hk).1
      unfold Allowed
      rw [hfil, hcls, List.getElem?_append_left hd]
    apply Option.ext
    intro c
    rw [lookup_iff h', lookup_iff h]
    simp only [himp]
    constructor
    · rintro ⟨⟨h1, h2⟩, h3⟩
      exact ⟨⟨h1, (hall c h1).1 h2⟩, fun d h4 h5 => h3 d h4 ((hall d h4).2 h5)⟩
    · rintro ⟨⟨h1, h2⟩, h3⟩
      exact ⟨⟨h1, (hall c h1).2 h2⟩, fun d h4 h5 => h3 d h4 ((hall d h4).1 h5)⟩
  · rw [define, if_neg hc]

/-- **C125.** A filter admits the classes whose Python module is one of those given or inside one of them; a name that merely begins with the same letters does not count. -/
theorem filter_admits (w : World) (ms : List (List Name)) (c : ℕ) (k : Cls) (n : List Name) (hf : w.filter = some (ms.map spell)) (hk : w.cls[c]? = some k) (hn : k.home = some (spell n))
    (hne : n ≠ []) (hms : [] ∉ ms) (dn : ∀ a ∈ n, '.' ∉ a) (dm : ∀ m ∈ ms, ∀ a ∈ m, '.' ∉ a) : allowed w c = true ↔ ∃ m ∈ ms, m <+: n := by
  rw [allowed_iff]
  unfold Allowed
  rw [hf]
  simp only [Option.some.injEq, forall_eq', List.mem_map, hk, hn, ↓existsAndEq, true_and, and_true]
  constructor
  · rintro ⟨m, hm, h⟩
    exact ⟨m, hm, (spell_inside m n (fun e => hms (e ▸ hm)) hne (dm m hm) dn).1 h⟩
  · rintro ⟨m, hm, h⟩
    exact ⟨m, hm, (spell_inside m n (fun e => hms (e ▸ hm)) hne (dm m hm) dn).2 h⟩

/-- What a thread does within a `with` block, other threads setting no filters meanwhile: classes are defined and blocks are entered and left. -/
inductive Block (t : ℕ) : List Event → Prop
  | nil : Block t []
  | define (b n i es) : Block t es → Block t (.define b n i :: es)
  | inner (ms es es') : Block t es → Block t es' → Block t (.enter t ms :: es ++ .leave t :: es')

theorem block_kept (t : ℕ) (es : List Event) (h : Block t es) : ∀ w, (run w es).filter = w.filter ∧ (run w es).saved t = w.saved t := by
  induction h with
  | nil => intro w; exact ⟨rfl, rfl⟩
  | define b n i es _ ih =>
    intro w
    obtain ⟨h1, h2⟩ := ih (step w (.define b n i))
    obtain ⟨g1, g2⟩ := define_filter w b n i
    exact ⟨h1.trans g1, h2.trans (by rw [show (step w (.define b n i)).saved = w.saved from g2])⟩
  | inner ms es es' _ _ ih ih' =>
    intro w
    rw [run_append]
    obtain ⟨h1, h2⟩ := ih (step w (.enter t ms))
    have hr : run w (.enter t ms :: es) = run (step w (.enter t ms)) es := rfl
    have hs : (run (step w (.enter t ms)) es).saved t = w.filter :: w.saved t := by rw [h2]; simp [step, setSaved]
    rw [hr]
    generalize run (step w (.enter t ms)) es = v at *
    have hl : step v (.leave t) = { v with filter := w.filter, saved := setSaved v.saved t (w.saved t) } := by rw [step, hs]
    show (run (step v (.leave t)) es').filter = _ ∧ _
    obtain ⟨a1, a2⟩ := ih' (step v (.leave t))
    refine ⟨a1.trans (by rw [hl]), ?_⟩
    show (run (step v (.leave t)) es').saved t = _
    rw [a2, hl]
    simp [setSaved]

/-- **C125 (partial).** Within a `with` block the modules given are the filter, also where blocks are nested, and afterwards the filter is as before.
Missing: other threads, see `filter_left_behind`. -/
theorem filter_scoped_partial (w : World) (t : ℕ) (ms : List Name) (es : List Event) (h : Block t es) :
    (run w (.enter t ms :: es)).filter = some ms ∧ (run w (.enter t ms :: es ++ [.leave t])).filter = w.filter := by
  refine ⟨(block_kept t es h (step w (.enter t ms))).1, ?_⟩
  exact (block_kept t _ (.inner ms es [] h .nil) w).1

/-! ### Deviations -/

/-- **C125, deviation.** A class derived from a quantized class takes its place only if the class it is the quantized version of has no base class of its own: class 2 is a layer, class 3 derives from it,
class 4 is the quantized version of class 3, and class 5, derived from class 4, is not found, although the same works for the layer itself (classes 6 and 7). -/
theorem subclass_not_found :
    let w := run start [.define [0] none true, .define [2] none true, .define [1, 3] none true, .define [4] none true, .define [1, 2] none true, .define [6] none true]
    lookup w 3 = some 4 ∧ lookup w 2 = some 7 := by decide +kernel

/-- **C125, deviation.** A class that names `torch.nn.Module` itself among its bases becomes the conversion of `torch.nn.Module`, whatever was defined before. -/
theorem base_replaced (es : List Event) (home : Option Name) (hf : (run start es).filter = none) :
    lookup (run start (es ++ [.define [1, 0] home true])) 0 = some (run start es).cls.length := by
  have h : Inv (run start es) := run_inv start_inv es
  rw [run_append]
  generalize run start es = w at *
  show lookup (define w [1, 0] home true) 0 = _
  have two := h.two
  have hc : [1, 0].Nodup ∧ ∀ b ∈ [1, 0], b < w.cls.length := ⟨by decide, by simp; omega⟩
  have h' : Inv (define w [1, 0] home true) := define_inv h _ _ _
  have hfil := (define_filter w [1, 0] home true).1
  have hcls : (define w [1, 0] home true).cls = w.cls ++ [⟨[1, 0], w.cls.length :: ([1, 0].flatMap (mroOf w)).dedup, home, true⟩] := by rw [define, if_pos hc]
  generalize define w [1, 0] home true = w' at *
  have hl : w'.cls.length = w.cls.length + 1 := by rw [hcls]; simp
  have self : ∀ a, a < w'.cls.length → Derives w' a a := fun a ha => .self a _ (List.getElem?_eq_getElem ha)
  have new : w'.cls[w.cls.length]? = some ⟨[1, 0], w.cls.length :: ([1, 0].flatMap (mroOf w)).dedup, home, true⟩ := by rw [hcls]; simp
  have himp : Implements w' w.cls.length 0 := by
    refine ⟨_, new, rfl, .base _ _ 1 1 new (by simp) (self 1 (by omega)), two, .inl ⟨by simp, ⟨self 0 (by omega), fun hd => ?_⟩, fun b hb hp => ?_⟩⟩
    · have := derives_le h'.bases hd; omega
    · simp only [List.mem_cons, List.not_mem_nil, or_false] at hb
      rcases hb with rfl | rfl
      · exact absurd (self 1 (by omega)) hp.2
      · rfl
  rw [lookup_iff h']
  refine ⟨⟨himp, fun ms hms => ?_⟩, fun d hd _ => ?_⟩
  · rw [hfil, hf] at hms; cases hms
  · obtain ⟨k, hk, _⟩ := hd
    have := (List.getElem?_eq_some_iff.1 hk).1
    omega

/-- **C125, deviation.** A quantized version of two module classes is found for neither of them. -/
theorem two_bases : let w := run start [.define [0] none true, .define [0] none true, .define [1, 2, 3] none true]
    lookup w 2 = none ∧ lookup w 3 = none := by decide +kernel

/-- **C125, deviation.** The filter is one for all threads: of two overlapping blocks the one that is left last puts back the filter of the other, and it stays. -/
theorem filter_left_behind (w : World) (a b : List Name) (hf : w.filter = none) :
    (run w [.enter 1 a, .enter 2 b, .leave 1]).filter = none ∧ (run w [.enter 1 a, .enter 2 b, .leave 1, .leave 2]).filter = some a := by
  simp [run, step, setSaved, hf]

/-! ### Concrete cases -/

/-- A layer, two quantized versions of it in different Python modules, and one that is opted out. -/
def exEvents : List Event := [.define [0] (some "torch.nn".toList) true, .define [1, 2] (some "ff.nn".toList) true, .define [1, 2] (some "ffx.nn".toList) true, .define [1, 2] (some "ff".toList) false]

example : lookup (run start exEvents) 2 = some 4 := by decide +kernel

example : lookup (run start (exEvents ++ [.enter 0 ["ff".toList]])) 2 = some 3 := by decide +kernel

example : lookup (run start (exEvents ++ [.enter 0 ["ff".toList], .enter 0 ["other".toList]])) 2 = none := by decide +kernel

example : lookup (run start (exEvents ++ [.enter 0 ["ff".toList], .enter 0 ["other".toList], .leave 0, .leave 0])) 2 = some 4 := by decide +kernel

example : Block 0 [.define [1, 2] none true, .enter 0 ["ff".toList], .define [0] none true, .leave 0] :=
  .define _ _ _ _ (.inner ["ff".toList] [.define [0] none true] [] (.define _ _ _ _ .nil) .nil)

/-- The new class counts as the quantized version of class 2, not of class 0. -/
example : lookup (run start ([.define [0] none true] ++ [.define [1, 2] none true])) 0 = none ∧ lookup (run start ([.define [0] none true] ++ [.define [1, 2] none true])) 2 = some 3 := by decide +kernel

example : spell ["ff".toList, "nn".toList] = "ff.nn".toList ∧ (["ff".toList] <+: ["ff".toList, "nn".toList]) := ⟨by decide +kernel, ["nn".toList], rfl⟩

end FF.Registry
