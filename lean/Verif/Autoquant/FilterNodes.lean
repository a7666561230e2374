import Mathlib.Data.List.Nodup
import Mathlib.Data.List.Perm.Subperm

/-!
# Finding nodes in code

Models `filter_nodes_by_type` in `src/fastforward/_autoquant/cst/filter.py`. Nodes are numbers; two nodes are the same if they are the same object (`libcst`
compares nodes by identity), and one node can occur in several places.
-/

namespace FF.FilterNodes

/-! ## Model -/

/-- filter.py:43-47: the children that are not seen yet, as they are put into the queue. -/
def fresh : List ℕ → List ℕ → List ℕ
  | _, [] => []
  | seen, c :: cs => if c ∈ seen then fresh seen cs else c :: fresh (c :: seen) cs

/-- filter.py:39-47: the loop, with `ch` the children of nodes and `p` whether a node has the type. What is yielded, or `none` after more than `n` steps. -/
def loop (ch : ℕ → List ℕ) (p : ℕ → Bool) : ℕ → List ℕ → List ℕ → Option (List ℕ)
  | 0, _, _ => none
  | _ + 1, [], _ => some []
  | n + 1, x :: q, seen =>
    (loop ch p n (q ++ fresh seen (ch x)) (fresh seen (ch x) ++ seen)).map fun out => if p x then x :: out else out

/-- `filter_nodes_by_type`, filter.py:26-47. -/
def filterNodes (ch : ℕ → List ℕ) (p : ℕ → Bool) (n root : ℕ) : Option (List ℕ) := loop ch p n [root] [root]

/-! ## Specification -/

/-- A node is found by going down `k` times. -/
inductive Below (ch : ℕ → List ℕ) (root : ℕ) : ℕ → ℕ → Prop
  | root : Below ch root 0 root
  | child {k x y : ℕ} (h : Below ch root k x) (hc : y ∈ ch x) : Below ch root (k + 1) y

/-- The nodes at a depth of a tree, from left to right. -/
def level (ch : ℕ → List ℕ) (root : ℕ) : ℕ → List ℕ
  | 0 => [root]
  | k + 1 => (level ch root k).flatMap ch

/-! ## Lemmas -/

variable {ch : ℕ → List ℕ} {p : ℕ → Bool}

theorem mem_fresh : ∀ {l S : List ℕ} {x : ℕ}, x ∈ fresh S l ↔ x ∈ l ∧ x ∉ S
  | [], S, x => by simp [fresh]
  | c :: l, S, x => by
    unfold fresh
    split
    case isTrue h =>
      rw [mem_fresh]
      constructor
      · rintro ⟨a, b⟩; exact ⟨List.mem_cons_of_mem _ a, b⟩
      · rintro ⟨a, b⟩
        rcases List.mem_cons.1 a with rfl | a
        · exact absurd h b
        · exact ⟨a, b⟩
    case isFalse h =>
      rw [List.mem_cons, mem_fresh, List.mem_cons, List.mem_cons]
      constructor
      · rintro (rfl | ⟨a, b⟩)
        · exact ⟨.inl rfl, h⟩
        · exact ⟨.inr a, fun hx => b (.inr hx)⟩
      · rintro ⟨a, b⟩
        by_cases he : x = c
        · exact .inl he
        · exact .inr ⟨a.resolve_left he, fun hx => hx.elim he b⟩

theorem fresh_nodup : ∀ {l S : List ℕ}, (fresh S l).Nodup
  | [], S => by simp [fresh]
  | c :: l, S => by
    unfold fresh
    split
    · exact fresh_nodup
    · rw [List.nodup_cons]
      refine ⟨?_, fresh_nodup⟩
      rw [mem_fresh]
      simp

theorem fresh_congr : ∀ {l S T : List ℕ}, (∀ x, x ∈ S ↔ x ∈ T) → fresh S l = fresh T l
  | [], S, T, h => rfl
  | c :: l, S, T, h => by
    unfold fresh
    by_cases hc : c ∈ S
    · rw [if_pos hc, if_pos ((h c).1 hc)]; exact fresh_congr h
    · rw [if_neg hc, if_neg (fun h' => hc ((h c).2 h')), fresh_congr (S := c :: S) (T := c :: T)]
      intro x; rw [List.mem_cons, List.mem_cons, h x]

theorem fresh_append : ∀ {a b S : List ℕ}, fresh S (a ++ b) = fresh S a ++ fresh (fresh S a ++ S) b
  | [], b, S => by simp [fresh]
  | c :: a, b, S => by
    rw [List.cons_append, fresh, fresh]
    split
    · exact fresh_append
    · rw [fresh_append, List.cons_append]
      congr 2
      apply fresh_congr
      intro x
      simp only [List.mem_append, List.mem_cons, List.cons_append]
      tauto

theorem fresh_self : ∀ {l S : List ℕ}, l.Nodup → (∀ x ∈ l, x ∉ S) → fresh S l = l
  | [], _, _, _ => rfl
  | c :: l, S, hn, hd => by
    rw [List.nodup_cons] at hn
    rw [fresh, if_neg (hd c (by simp)), fresh_self hn.2]
    intro x hx
    rw [List.mem_cons]
    rintro (rfl | h)
    · exact hn.1 hx
    · exact hd x (List.mem_cons_of_mem _ hx) h

/-- What is yielded is what is visited and has the type. -/
theorem loop_filter : ∀ (n : ℕ) (q S : List ℕ), loop ch p n q S = (loop ch (fun _ => true) n q S).map (List.filter p)
  | 0, _, _ => rfl
  | _ + 1, [], _ => rfl
  | n + 1, x :: q, S => by
    rw [loop, loop, loop_filter n, Option.map_map, Option.map_map]
    congr 1
    funext out
    simp only [Function.comp, if_true, List.filter_cons]

/-- The first part of the queue is visited first, its children last. -/
theorem loop_level : ∀ (l r S : List ℕ) (n : ℕ), loop ch (fun _ => true) (n + l.length) (l ++ r) S =
    (loop ch (fun _ => true) n (r ++ fresh S (l.flatMap ch)) (fresh S (l.flatMap ch) ++ S)).map (l ++ ·)
  | [], r, S, n => by simp [fresh]
  | x :: l, r, S, n => by
    rw [List.length_cons, ← Nat.add_assoc, List.cons_append, loop, List.append_assoc, loop_level l, Option.map_map, List.flatMap_cons, fresh_append]
    have hc : fresh (fresh S (ch x) ++ S) (l.flatMap ch) ++ (fresh S (ch x) ++ S) = fresh (fresh S (ch x) ++ S) (l.flatMap ch) ++ fresh S (ch x) ++ S := by
      rw [List.append_assoc]
    have hs := loop_congr n (r ++ fresh S (ch x) ++ fresh (fresh S (ch x) ++ S) (l.flatMap ch))
      (fresh (fresh S (ch x) ++ S) (l.flatMap ch) ++ (fresh S (ch x) ++ S)) (fresh S (ch x) ++ fresh (fresh S (ch x) ++ S) (l.flatMap ch) ++ S) (by
        intro y; simp only [List.mem_append]; tauto)
    rw [hs, List.append_assoc r]
    rfl
where
  loop_congr : ∀ (n : ℕ) (q S T : List ℕ), (∀ x, x ∈ S ↔ x ∈ T) → loop ch (fun _ => true) n q S = loop ch (fun _ => true) n q T
    | 0, _, _, _, _ => rfl
    | _ + 1, [], _, _, _ => rfl
    | n + 1, x :: q, S, T, h => by
      rw [loop, loop, fresh_congr h, loop_congr n _ (fresh T (ch x) ++ S) (fresh T (ch x) ++ T)]
      intro y; rw [List.mem_append, List.mem_append, h y]

/-- The nodes first found at a depth, and those found until then. -/
def found (ch : ℕ → List ℕ) (root : ℕ) : ℕ → List ℕ × List ℕ
  | 0 => ([root], [root])
  | k + 1 =>
    let f := found ch root k
    (fresh f.2 (f.1.flatMap ch), fresh f.2 (f.1.flatMap ch) ++ f.2)

theorem found_seen (root : ℕ) : ∀ (k x : ℕ), x ∈ (found ch root k).2 ↔ ∃ j ≤ k, x ∈ (found ch root j).1
  | 0, x => by simp [found]
  | k + 1, x => by
    simp only [found, List.mem_append]
    rw [found_seen root k x]
    constructor
    · rintro (h | ⟨j, hj, h⟩)
      · exact ⟨k + 1, Nat.le_refl _, h⟩
      · exact ⟨j, by omega, h⟩
    · rintro ⟨j, hj, h⟩
      rcases Nat.lt_or_ge j (k + 1) with hlt | hge
      · exact .inr ⟨j, by omega, h⟩
      · obtain rfl : j = k + 1 := by omega
        exact .inl h

theorem found_below (root : ℕ) : ∀ (k x : ℕ), x ∈ (found ch root k).1 → Below ch root k x
  | 0, x, h => by simp [found] at h; subst h; exact .root
  | k + 1, x, h => by
    simp only [found] at h
    obtain ⟨h1, _⟩ := mem_fresh.1 h
    obtain ⟨y, hy, hx⟩ := List.mem_flatMap.1 h1
    exact .child (found_below root k y hy) hx

theorem below_found {root : ℕ} {k x : ℕ} (h : Below ch root k x) : ∃ j ≤ k, x ∈ (found ch root j).1 := by
  induction h with
  | root => exact ⟨0, Nat.le_refl _, by simp [found]⟩
  | @child k x y _ hc ih =>
    obtain ⟨j, hj, hx⟩ := ih
    by_cases hy : y ∈ (found ch root j).2
    · obtain ⟨i, hi, h⟩ := (found_seen root j y).1 hy
      exact ⟨i, by omega, h⟩
    · exact ⟨j + 1, by omega, mem_fresh.2 ⟨List.mem_flatMap.2 ⟨x, hx, hc⟩, hy⟩⟩

theorem loop_nil : ∀ (n : ℕ) (S : List ℕ), 0 < n → loop ch (fun _ => true) n [] S = some []
  | _ + 1, _, _ => rfl

/-- The loop goes through the depths one after the other. -/
theorem loop_depths (root : ℕ) : ∀ (n k : ℕ) (out : List ℕ), loop ch (fun _ => true) n (found ch root k).1 (found ch root k).2 = some out →
    ∃ m, out = (List.range m).flatMap (fun i => (found ch root (k + i)).1) ∧ (found ch root (k + m)).1 = [] := by
  intro n
  induction n using Nat.strongRecOn with
  | _ n ih =>
    intro k out h
    by_cases hl : (found ch root k).1 = []
    · refine ⟨0, ?_, hl⟩
      rw [hl] at h
      cases n with
      | zero => cases h
      | succ n => simp only [loop, Option.some.injEq] at h; simp [← h]
    · have hpos : 0 < (found ch root k).1.length := List.length_pos_iff.2 hl
      have short : ∀ (l S : List ℕ) (n : ℕ), n ≤ l.length → l ≠ [] → ∀ r, loop ch (fun _ => true) n (l ++ r) S = none := by
        intro l
        induction l with
        | nil => intro S n _ hne; exact absurd rfl hne
        | cons x l ihl =>
          intro S n hn _ r
          cases n with
          | zero => rfl
          | succ n =>
            rw [List.cons_append, loop, List.append_assoc]
            cases l with
            | nil => simp at hn; subst hn; rfl
            | cons y l => rw [ihl _ n (by simpa using hn) (by simp)]; rfl
      rcases Nat.lt_or_ge (found ch root k).1.length n with hlt | hge
      · obtain ⟨d, rfl⟩ : ∃ d, n = d + (found ch root k).1.length := ⟨n - (found ch root k).1.length, by omega⟩
        have h2 := loop_level (ch := ch) (found ch root k).1 [] (found ch root k).2 d
        rw [List.append_nil, List.nil_append] at h2
        rw [h2] at h
        obtain ⟨out', ho, rfl⟩ := Option.map_eq_some_iff.1 h
        obtain ⟨m, hm, he⟩ := ih d (by omega) (k + 1) out' ho
        refine ⟨m + 1, ?_, by rw [← he]; congr 2; omega⟩
        rw [List.range_succ_eq_map, List.flatMap_cons, List.flatMap_map, hm]
        congr 1
        congr 1
        funext i
        congr 2
        omega
      · have := short _ (found ch root k).2 n hge hl []
        rw [List.append_nil] at this
        rw [this] at h
        cases h

theorem visit {root n : ℕ} {out : List ℕ} (h : filterNodes ch (fun _ => true) n root = some out) :
    ∃ m, out = (List.range m).flatMap (fun i => (found ch root i).1) ∧ (found ch root m).1 = [] := by
  obtain ⟨m, h1, h2⟩ := loop_depths root n 0 out h
  exact ⟨m, by simpa using h1, by simpa using h2⟩

theorem found_empty {root m : ℕ} (h : (found ch root m).1 = []) : ∀ k, (found ch root (m + k)).1 = []
  | 0 => h
  | k + 1 => by
    show fresh (found ch root (m + k)).2 ((found ch root (m + k)).1.flatMap ch) = []
    rw [found_empty h k]; rfl

theorem mem_visit {root n : ℕ} {out : List ℕ} (h : filterNodes ch (fun _ => true) n root = some out) (x : ℕ) : x ∈ out ↔ ∃ k, Below ch root k x := by
  obtain ⟨m, rfl, he⟩ := visit h
  rw [List.mem_flatMap]
  constructor
  · rintro ⟨i, _, hx⟩; exact ⟨i, found_below root i x hx⟩
  · rintro ⟨k, hk⟩
    obtain ⟨j, _, hx⟩ := below_found hk
    refine ⟨j, ?_, hx⟩
    rw [List.mem_range]
    by_contra hge
    have := found_empty he (j - m)
    rw [show m + (j - m) = j by omega] at this
    rw [this] at hx
    cases hx

theorem found_disjoint {root i j x : ℕ} (hij : i < j) (hi : x ∈ (found ch root i).1) : x ∉ (found ch root j).1 := by
  obtain ⟨d, rfl⟩ : ∃ d, j = d + 1 := ⟨j - 1, by omega⟩
  intro h
  exact (mem_fresh.1 h).2 ((found_seen root d x).2 ⟨i, by omega, hi⟩)

theorem found_nodup (root : ℕ) : ∀ k, (found ch root k).1.Nodup
  | 0 => by simp [found]
  | k + 1 => fresh_nodup

theorem visit_nodup {root n : ℕ} {out : List ℕ} (h : filterNodes ch (fun _ => true) n root = some out) : out.Nodup := by
  obtain ⟨m, rfl, _⟩ := visit h
  rw [List.nodup_flatMap]
  refine ⟨fun i _ => found_nodup root i, ?_⟩
  refine List.Pairwise.imp (fun {a b} hab => ?_) (List.pairwise_lt_range (n := m))
  intro x hx hx'
  exact found_disjoint hab hx hx'

theorem filterNodes_eq (n root : ℕ) : filterNodes ch p n root = (filterNodes ch (fun _ => true) n root).map (List.filter p) := loop_filter n _ _

/-! ## Properties -/

/-- **C136.** The search ends, in any code: with finitely many nodes, after visiting each at most once. -/
theorem search_ends (N root : ℕ) (hr : root < N) (hN : ∀ x < N, ∀ y ∈ ch x, y < N) : ∃ out, filterNodes ch p (N + 1) root = some out := by
  rw [filterNodes_eq]
  have key : ∀ (n : ℕ) (done q : List ℕ), (done ++ q).Nodup → (∀ x ∈ done ++ q, x < N) → N + 1 ≤ n + done.length →
      ∃ out, loop ch (fun _ => true) n q (q ++ done) = some out := by
    intro n
    induction n with
    | zero =>
      intro done q hn hlt hle
      have hsub : (done ++ q).length ≤ N := by
        have := (List.subperm_of_subset hn (l₂ := List.range N) fun x hx => List.mem_range.2 (hlt x hx)).length_le
        simpa using this
      rw [List.length_append] at hsub
      omega
    | succ n ih =>
      intro done q hn hlt hle
      cases q with
      | nil => exact ⟨[], rfl⟩
      | cons x q =>
        have hf : ∀ y, y ∈ fresh (x :: q ++ done) (ch x) → y ∉ x :: q ++ done := fun y hy => (mem_fresh.1 hy).2
        have hn' : ((done ++ [x]) ++ (q ++ fresh (x :: q ++ done) (ch x))).Nodup := by
          have : (done ++ [x]) ++ (q ++ fresh (x :: q ++ done) (ch x)) = (done ++ x :: q) ++ fresh (x :: q ++ done) (ch x) := by simp
          rw [this, List.nodup_append]
          refine ⟨hn, fresh_nodup, ?_⟩
          rintro a ha b hb rfl
          apply hf a hb
          simp only [List.mem_append, List.mem_cons] at ha ⊢
          tauto
        have hlt' : ∀ y ∈ (done ++ [x]) ++ (q ++ fresh (x :: q ++ done) (ch x)), y < N := by
          intro y hy
          simp only [List.mem_append, List.mem_cons, List.not_mem_nil, or_false] at hy
          rcases hy with (h | h) | h | h
          · exact hlt y (by simp [h])
          · exact hlt y (by simp [h])
          · exact hlt y (by simp [h])
          · exact hN x (hlt x (by simp)) y (mem_fresh.1 h).1
        obtain ⟨out, ho⟩ := ih (done ++ [x]) (q ++ fresh (x :: q ++ done) (ch x)) hn' hlt' (by simp; omega)
        refine ⟨x :: out, ?_⟩
        rw [loop]
        rw [loop_level.loop_congr n _ _ ((q ++ fresh (x :: q ++ done) (ch x)) ++ (done ++ [x])) (by
          intro y; simp only [List.mem_append, List.mem_cons, List.not_mem_nil, or_false]; tauto), ho]
        rfl
  obtain ⟨out, ho⟩ := key (N + 1) [] [root] (by simp) (by simpa using hr) (by simp)
  exact ⟨out.filter p, by rw [show filterNodes ch (fun _ => true) (N + 1) root = some out from ho]; rfl⟩

/-- **C136.** Exactly the nodes of the type within the code are found, each once, also if it occurs in several places. -/
theorem finds_exactly (n root : ℕ) (out : List ℕ) (h : filterNodes ch p n root = some out) :
    out.Nodup ∧ ∀ x, x ∈ out ↔ (∃ k, Below ch root k x) ∧ p x = true := by
  rw [filterNodes_eq] at h
  obtain ⟨v, hv, rfl⟩ := Option.map_eq_some_iff.1 h
  refine ⟨(visit_nodup hv).filter _, fun x => ?_⟩
  rw [List.mem_filter, mem_visit hv]

/-- **C136.** Breadth first: a node that is found before another is not deeper in the code. -/
theorem breadth_first (n root : ℕ) (out : List ℕ) (h : filterNodes ch p n root = some out) (i j : ℕ) (hij : i < j) (x y : ℕ)
    (hx : out[i]? = some x) (hy : out[j]? = some y) (d : ℕ) (hd : Below ch root d y) : ∃ e ≤ d, Below ch root e x := by
  rw [filterNodes_eq] at h
  obtain ⟨v, hv, rfl⟩ := Option.map_eq_some_iff.1 h
  obtain ⟨m, rfl, _⟩ := visit hv
  have hp : ((List.range m).flatMap fun i => (found ch root i).1).Pairwise fun a b => ∀ d, Below ch root d b → ∃ e ≤ d, Below ch root e a := by
    rw [List.pairwise_flatMap]
    have depth : ∀ {i j a b d : ℕ}, i ≤ j → a ∈ (found ch root i).1 → b ∈ (found ch root j).1 → Below ch root d b → ∃ e ≤ d, Below ch root e a := by
      intro i j a b d hij ha hb hd
      obtain ⟨k, hk, hbk⟩ := below_found hd
      have : j ≤ k := by
        by_contra hlt
        exact found_disjoint (by omega) hbk hb
      exact ⟨i, by omega, found_below root i a ha⟩
    refine ⟨fun i _ => ?_, ?_⟩
    · rw [List.pairwise_iff_getElem]
      intro a b ha hb _ d hd
      exact depth (Nat.le_refl i) (List.getElem_mem ha) (List.getElem_mem hb) hd
    · refine List.Pairwise.imp (fun {a b} hab => ?_) (List.pairwise_lt_range (n := m))
      intro x hx y hy d hd
      exact depth (by omega) hx hy hd
  have hp2 := hp.filter p
  rw [List.pairwise_iff_getElem] at hp2
  obtain ⟨hi, rfl⟩ := List.getElem?_eq_some_iff.1 hx
  obtain ⟨hj, rfl⟩ := List.getElem?_eq_some_iff.1 hy
  exact hp2 i j hi hj hij d hd

/-- **C136.** In code in which no node occurs twice, the nodes are found depth by depth and from left to right. -/
theorem left_to_right (n root m : ℕ) (out : List ℕ) (h : filterNodes ch p n root = some out) (hm : level ch root m = [])
    (hn : ((List.range m).flatMap (level ch root)).Nodup) : out = ((List.range m).flatMap (level ch root)).filter p := by
  rw [filterNodes_eq] at h
  obtain ⟨v, hv, rfl⟩ := Option.map_eq_some_iff.1 h
  congr 1
  have hlev : ∀ k ≤ m, (found ch root k).1 = level ch root k := by
    intro k
    induction k using Nat.strongRecOn with
    | _ k ih =>
      intro hk
      cases k with
      | zero => rfl
      | succ k =>
        show fresh _ ((found ch root k).1.flatMap ch) = _
        rw [ih k (by omega) (by omega)]
        show fresh _ (level ch root (k + 1)) = _
        rcases Nat.lt_or_ge (k + 1) m with hlt | hge
        · rw [List.nodup_flatMap] at hn
          refine fresh_self (hn.1 (k + 1) (List.mem_range.2 hlt)) fun x hx hs => ?_
          obtain ⟨j, hj, hxj⟩ := (found_seen root k x).1 hs
          rw [ih j (by omega) (by omega)] at hxj
          have hpw := hn.2
          rw [List.pairwise_iff_getElem] at hpw
          have := hpw j (k + 1) (by simp; omega) (by simp; omega) (by omega)
          simp only [List.getElem_range] at this
          exact this hxj hx
        · obtain rfl : k + 1 = m := by omega
          rw [hm]; rfl
  obtain ⟨m', rfl, he⟩ := visit hv
  have hfm : (found ch root m).1 = [] := by rw [hlev m (Nat.le_refl _), hm]
  have cut : ∀ a b, a ≤ b → (found ch root a).1 = [] → (List.range b).flatMap (fun i => (found ch root i).1) = (List.range a).flatMap fun i => (found ch root i).1 := by
    intro a b hab ha
    obtain ⟨d, rfl⟩ := Nat.exists_eq_add_of_le hab
    rw [List.range_add, List.flatMap_append, List.flatMap_map]
    have : (List.range d).flatMap (fun i => (found ch root (a + i)).1) = [] := by
      rw [List.flatMap_eq_nil_iff]; intro i _; exact found_empty ha i
    rw [this, List.append_nil]
  have e1 : (List.range m').flatMap (fun i => (found ch root i).1) = (List.range m).flatMap fun i => (found ch root i).1 := by
    rcases Nat.le_total m m' with h | h
    · exact cut m m' h hfm
    · exact (cut m' m h he).symm
  rw [e1]
  apply List.flatMap_congr
  intro k hk
  exact hlev k (by have := List.mem_range.1 hk; omega)

/-! ## Concrete cases -/

/-- `f(a + b)`: a call of a name with a sum. -/
def sample : ℕ → List ℕ
  | 0 => [1, 2]
  | 2 => [3, 4]
  | _ => []

example : filterNodes sample (fun x => x ∈ [1, 2, 4]) 6 0 = some [1, 2, 4] := by decide

example : level sample 0 3 = [] ∧ ((List.range 3).flatMap (level sample 0)).Nodup := by decide

/-- A node in two places, and in a loop. -/
example : filterNodes (fun | 0 => [1, 2, 1] | 1 => [3] | 2 => [3] | _ => [0]) (fun _ => true) 6 0 = some [0, 1, 2, 3] := by decide

end FF.FilterNodes
