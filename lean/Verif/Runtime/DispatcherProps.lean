import Verif.Runtime.Dispatcher
import Mathlib.Data.List.Nodup
import Mathlib.Order.Basic

/-! # Kernel dispatch: properties (C28, C29) -/

namespace FF.Dispatch

/-! ### Specification -/

/-- A registration: who made it, for which operator, and what. -/
structure Reg where
  hook : ℕ
  op : String
  it : Item
  deriving DecidableEq, Repr

/-- The registrations in force after a history, the most recent first: leaving a block ends the registration it was made for. -/
def live : List Event → List Reg → List Reg
  | [], l => l
  | .reg h op it :: es, l => live es (⟨h, op, it⟩ :: l)
  | .exit h :: es, l => live es (l.filter fun r => r.hook ≠ h)

/-- `r` is the kernel dispatch has to choose among the registrations `l` (most recent first): that of the most recent matching
registration of the best (numerically lowest) priority for which there is a match; nothing if nothing matches. -/
def Picks (l : List Reg) (op : String) (holds : ℕ → Bool) (r : Option ℕ) : Prop :=
  (r = none ∧ ∀ x ∈ l, x.op = op → holds x.it.pred = false) ∨
  ∃ newer x older, l = newer ++ x :: older ∧ r = some x.it.fn ∧ x.op = op ∧ holds x.it.pred = true ∧
    (∀ y ∈ newer, y.op = op → holds y.it.pred = true → x.it.prio < y.it.prio) ∧
    (∀ y ∈ older, y.op = op → holds y.it.pred = true → x.it.prio ≤ y.it.prio)

/-- Hook objects are created once, and no two registrations for an operator are equal (they differ in predicate object, kernel or
priority; registrations without a predicate always do, each gets its own). -/
def Distinct (es : List Event) : Prop :=
  es.Pairwise fun a b => match a, b with
    | .reg h op it, .reg h' op' it' => h ≠ h' ∧ (op, it) ≠ (op', it')
    | _, _ => True

/-- Histories of properly nested `with register(...)` blocks, of any depth and with any duplicates; an exception only makes blocks end
earlier. -/
inductive Nested : List Event → Prop
  | nil : Nested []
  | block {h : ℕ} {op : String} {it : Item} {body rest : List Event} : Nested body → Nested rest → (∀ op' it', .reg h op' it' ∉ body) →
      Nested (.reg h op it :: body ++ .exit h :: rest)

/-! ### Lemmas -/

/-- The items of an operator are sorted by priority. -/
def Sorted (a : List Item) : Prop := a.Pairwise fun x y => x.prio ≤ y.prio

theorem sorted_getElem {a : List Item} (h : Sorted a) {i j : ℕ} (hij : i ≤ j) (hj : j < a.length) :
    (a[i]'(by omega)).prio ≤ a[j].prio := by
  rcases Nat.lt_or_eq_of_le hij with h1 | rfl
  · exact List.pairwise_iff_getElem.1 h i j (by omega) hj h1
  · exact Nat.le_refl _

theorem bisectLoop_spec {a : List Item} (ha : Sorted a) (x fuel lo hi : ℕ) (hf : hi - lo < fuel) (hle : lo ≤ hi) (hhi : hi ≤ a.length)
    (h1 : ∀ (i : ℕ) (it : Item), i < lo → a[i]? = some it → it.prio < x) (h2 : ∀ (i : ℕ) (it : Item), hi ≤ i → a[i]? = some it → x ≤ it.prio) :
    bisectLoop a x fuel lo hi ≤ a.length ∧ (∀ (i : ℕ) (it : Item), i < bisectLoop a x fuel lo hi → a[i]? = some it → it.prio < x) ∧
      ∀ (i : ℕ) (it : Item), bisectLoop a x fuel lo hi ≤ i → a[i]? = some it → x ≤ it.prio := by
  induction fuel generalizing lo hi with
  | zero => omega
  | succ fuel ih =>
    simp only [bisectLoop]
    by_cases h : lo < hi
    · rw [if_pos h]
      have hmid : (lo + hi) / 2 < a.length := by omega
      rw [List.getElem?_eq_getElem hmid]
      simp only
      by_cases hp : a[(lo + hi) / 2].prio < x
      · rw [if_pos hp]
        refine ih _ _ (by omega) (by omega) hhi ?_ h2
        intro i it hi' hit
        obtain ⟨hil, rfl⟩ := List.getElem?_eq_some_iff.1 hit
        exact Nat.lt_of_le_of_lt (sorted_getElem ha (by omega) hmid) hp
      · rw [if_neg hp]
        refine ih _ _ (by omega) (by omega) (by omega) h1 ?_
        intro i it hi' hit
        obtain ⟨hil, rfl⟩ := List.getElem?_eq_some_iff.1 hit
        exact Nat.le_trans (by omega) (sorted_getElem ha hi' hil)
    · rw [if_neg h]
      have : lo = hi := by omega
      subst this
      exact ⟨hhi, h1, h2⟩

/-- Registration puts the item before the items of its own and of worse priority. -/
theorem insert_split {a : List Item} (ha : Sorted a) (it : Item) :
    ∃ l r, a = l ++ r ∧ a.insertIdx (bisectLeft a it.prio) it = l ++ it :: r ∧ (∀ y ∈ l, y.prio < it.prio) ∧ ∀ y ∈ r, it.prio ≤ y.prio := by
  obtain ⟨h0, h1, h2⟩ := bisectLoop_spec ha it.prio (a.length + 1) 0 a.length (by omega) (by omega) (Nat.le_refl _)
    (by intro i _ h; omega) (by
      intro i y h hy
      rw [List.getElem?_eq_none h] at hy; simp at hy)
  refine ⟨a.take (bisectLeft a it.prio), a.drop (bisectLeft a it.prio), (List.take_append_drop _ _).symm, ?_, ?_, ?_⟩
  · have gen : ∀ (a : List Item) (n : ℕ), n ≤ a.length → a.insertIdx n it = a.take n ++ it :: a.drop n := by
      intro a
      induction a with
      | nil => intro n hn; have : n = 0 := by simpa using hn
               subst this; rfl
      | cons y ys ih =>
        intro n hn
        cases n with
        | zero => rfl
        | succ n => simp [ih n (by simpa using hn)]
    exact gen a _ h0
  · intro y hy
    obtain ⟨i, hi, rfl⟩ := List.getElem_of_mem hy
    rw [List.length_take] at hi
    rw [List.getElem_take]
    exact h1 i _ (by unfold bisectLeft at hi; omega) (List.getElem?_eq_getElem _)
  · intro y hy
    obtain ⟨i, hi, rfl⟩ := List.getElem_of_mem hy
    rw [List.getElem_drop]
    exact h2 _ _ (by unfold bisectLeft; omega) (List.getElem?_eq_getElem _)

theorem insert_sorted {a l r : List Item} {it : Item} (ha : Sorted a) (h : a = l ++ r) (h1 : ∀ y ∈ l, y.prio < it.prio)
    (h2 : ∀ y ∈ r, it.prio ≤ y.prio) : Sorted (l ++ it :: r) := by
  subst h
  unfold Sorted at *
  rw [List.pairwise_append] at ha ⊢
  refine ⟨ha.1, List.pairwise_cons.2 ⟨h2, ha.2.1⟩, ?_⟩
  intro x hx y hy
  rcases List.mem_cons.1 hy with rfl | hy
  · exact Nat.le_of_lt (h1 x hx)
  · exact ha.2.2 x hx y hy

theorem erase_insert {a : List Item} (ha : Sorted a) (it : Item) : (a.insertIdx (bisectLeft a it.prio) it).erase it = a := by
  obtain ⟨l, r, h1, h2, h3, _⟩ := insert_split ha it
  rw [h2, List.erase_append_right, List.erase_cons_head, h1]
  intro h
  exact absurd (h3 it h) (Nat.lt_irrefl _)

/-- Invariant: sorted, and within each priority the live registrations, most recent first. -/
def Inv (s : St) (l : List Reg) : Prop :=
  (∀ op, Sorted (s.table op)) ∧
  (∀ op p, (s.table op).filter (fun it => it.prio = p) = ((l.filter fun r => r.op = op).map (·.it)).filter fun it => it.prio = p) ∧
  (∀ r ∈ l, s.hooks r.hook = some (r.op, r.it)) ∧ (l.map (·.hook)).Nodup ∧ (l.map fun r => (r.op, r.it)).Nodup

theorem inv_mem {s : St} {l : List Reg} (h : Inv s l) {op : String} {it : Item} : it ∈ s.table op ↔ ∃ r ∈ l, r.op = op ∧ r.it = it := by
  have := congrArg (it ∈ ·) (h.2.1 op it.prio)
  simp only [List.mem_filter, List.mem_map, decide_eq_true_eq, and_true, eq_iff_iff] at this
  rw [this]
  constructor
  · rintro ⟨r, ⟨h1, h2⟩, h3⟩; exact ⟨r, h1, h2, h3⟩
  · rintro ⟨r, h1, h2, h3⟩; exact ⟨r, ⟨h1, h2⟩, h3⟩

theorem filter_erase_of_nodup {a : List Item} {it : Item} {p : ℕ} :
    (a.erase it).filter (fun x => x.prio = p) = if it.prio = p then (a.filter fun x => x.prio = p).erase it else a.filter fun x => x.prio = p := by
  induction a with
  | nil => simp
  | cons x xs ih =>
    by_cases hx : x = it
    · subst hx
      rw [List.erase_cons_head]
      by_cases hp : x.prio = p
      · simp [hp]
      · simp [hp]
    · rw [List.erase_cons_tail (by simpa using hx)]
      by_cases hp : x.prio = p
      · rw [List.filter_cons_of_pos (by simpa using hp), List.filter_cons_of_pos (by simpa using hp), ih]
        by_cases hq : it.prio = p
        · rw [if_pos hq, if_pos hq, List.erase_cons_tail (by simpa using hx)]
        · rw [if_neg hq, if_neg hq]
      · rw [List.filter_cons_of_neg (by simpa using hp), List.filter_cons_of_neg (by simpa using hp), ih]

theorem live_erase {l : List Reg} (h1 : (l.map (·.hook)).Nodup) (h2 : (l.map fun r => (r.op, r.it)).Nodup) {r : Reg} (hr : r ∈ l) (op : String) :
    ((l.filter fun x => x.hook ≠ r.hook).filter fun x => x.op = op).map (·.it) =
      if r.op = op then ((l.filter fun x => x.op = op).map (·.it)).erase r.it else (l.filter fun x => x.op = op).map (·.it) := by
  induction l with
  | nil => simp at hr
  | cons x xs ih =>
    rw [List.map_cons, List.nodup_cons] at h1 h2
    rcases List.mem_cons.1 hr with rfl | hr
    · have hk : (xs.filter fun x => x.hook ≠ r.hook) = xs := by
        rw [List.filter_eq_self]
        intro y hy
        have : y.hook ≠ r.hook := fun he => h1.1 (List.mem_map.2 ⟨y, hy, he⟩)
        simpa using this
      rw [List.filter_cons_of_neg (by simp), hk]
      by_cases ho : r.op = op
      · rw [if_pos ho, List.filter_cons_of_pos (by simpa using ho), List.map_cons, List.erase_cons_head]
      · rw [if_neg ho, List.filter_cons_of_neg (by simpa using ho)]
    · have hne : x.hook ≠ r.hook := fun he => h1.1 (List.mem_map.2 ⟨r, hr, he.symm⟩)
      rw [List.filter_cons_of_pos (by simpa using hne)]
      have ih' := ih h1.2 h2.2 hr
      by_cases hx : x.op = op
      · rw [List.filter_cons_of_pos (by simpa using hx), List.filter_cons_of_pos (by simpa using hx), List.map_cons, List.map_cons, ih']
        by_cases ho : r.op = op
        · rw [if_pos ho, if_pos ho, List.erase_cons_tail]
          have : x.it ≠ r.it := by
            intro he
            exact h2.1 (List.mem_map.2 ⟨r, hr, by rw [he, hx, ho]⟩)
          simpa using this
        · rw [if_neg ho, if_neg ho]
      · rw [List.filter_cons_of_neg (by simpa using hx), List.filter_cons_of_neg (by simpa using hx), ih']

theorem sorted_erase {a : List Item} (h : Sorted a) (it : Item) : Sorted (a.erase it) := List.Pairwise.sublist List.erase_sublist h

/-- What remains of a history must not clash with what is live. -/
def Fresh (l : List Reg) (hooks : ℕ → Option (String × Item)) (es : List Event) : Prop :=
  ∀ h op it, .reg h op it ∈ es → hooks h = none ∧ ∀ r ∈ l, (r.op, r.it) ≠ (op, it)

/-- Hooks of ended registrations never name a live item. -/
def Dead (s : St) (l : List Reg) (es : List Event) : Prop :=
  ∀ h op it, s.hooks h = some (op, it) → (∃ r ∈ l, r.hook = h ∧ r.op = op ∧ r.it = it) ∨
    ((∀ r ∈ l, r.hook ≠ h ∧ (r.op, r.it) ≠ (op, it)) ∧ ∀ h', .reg h' op it ∉ es)

theorem run_inv (es : List Event) (hd : Distinct es) {s : St} {l : List Reg} (h : Inv s l) (hf : Fresh l s.hooks es) (hdd : Dead s l es) :
    Inv (s.run es) (live es l) := by
  induction es generalizing s l with
  | nil => exact h
  | cons e es ih =>
    unfold Distinct at hd
    rw [List.pairwise_cons] at hd
    obtain ⟨hd1, hd2⟩ := hd
    obtain ⟨hs, hi, hh, hn1, hn2⟩ := h
    cases e with
    | reg k op it =>
      obtain ⟨hk, hnew⟩ := hf k op it (by simp)
      obtain ⟨a, b, hab, hins, hlt, hge⟩ := insert_split (hs op) it
      refine ih hd2 (s := s.step (.reg k op it)) (l := ⟨k, op, it⟩ :: l) ⟨?_, ?_, ?_, ?_, ?_⟩ ?_ ?_
      · intro o
        simp only [St.step, register]
        split_ifs
        · rw [hins]; exact insert_sorted (hs op) hab hlt hge
        · exact hs o
      · intro o p
        simp only [St.step, register]
        by_cases ho : o = op
        · subst ho
          rw [if_pos rfl, hins, List.filter_cons_of_pos (by simp), List.map_cons]
          have hip := hi o p
          rw [hab, List.filter_append] at hip
          rw [List.filter_append]
          by_cases hp : it.prio = p
          · rw [List.filter_cons_of_pos (by simpa using hp), List.filter_cons_of_pos (by simpa using hp)]
            have hl : a.filter (fun x => x.prio = p) = [] := by
              rw [List.filter_eq_nil_iff]
              intro y hy
              have := hlt y hy
              simp; omega
            rw [hl] at hip ⊢
            rw [← hip]; rfl
          · rw [List.filter_cons_of_neg (by simpa using hp), List.filter_cons_of_neg (by simpa using hp)]
            exact hip
        · rw [if_neg ho, List.filter_cons_of_neg (by simpa using Ne.symm ho)]
          exact hi o p
      · intro r hr
        simp only [St.step]
        rcases List.mem_cons.1 hr with rfl | hr
        · simp
        · by_cases hrk : r.hook = k
          · have := hh r hr
            rw [hrk, hk] at this; simp at this
          · rw [if_neg hrk]; exact hh r hr
      · rw [List.map_cons, List.nodup_cons]
        refine ⟨?_, hn1⟩
        intro hm
        obtain ⟨r, hr, hrk⟩ := List.mem_map.1 hm
        have := hh r hr
        simp only at hrk
        rw [hrk, hk] at this; simp at this
      · rw [List.map_cons, List.nodup_cons]
        refine ⟨?_, hn2⟩
        intro hm
        obtain ⟨r, hr, hrk⟩ := List.mem_map.1 hm
        exact hnew r hr hrk
      · intro k' op' it' hm
        have hd' := hd1 _ hm
        simp only at hd'
        obtain ⟨h1, h2⟩ := hf k' op' it' (by simp [hm])
        refine ⟨by simp only [St.step]; rw [if_neg (Ne.symm hd'.1)]; exact h1, ?_⟩
        intro r hr
        rcases List.mem_cons.1 hr with rfl | hr
        · exact hd'.2
        · exact h2 r hr
      · intro k' op' it' hs'
        simp only [St.step] at hs'
        by_cases hkk : k' = k
        · rw [if_pos hkk] at hs'
          simp only [Option.some.injEq, Prod.mk.injEq] at hs'
          exact Or.inl ⟨⟨k, op, it⟩, by simp, hkk.symm, hs'.1, hs'.2⟩
        · rw [if_neg hkk] at hs'
          rcases hdd k' op' it' hs' with ⟨r, hr, h3⟩ | ⟨h3, h4⟩
          · exact Or.inl ⟨r, by simp [hr], h3⟩
          · right
            refine ⟨?_, fun h' hm => h4 h' (by simp [hm])⟩
            intro r hr
            rcases List.mem_cons.1 hr with rfl | hr
            · refine ⟨Ne.symm hkk, ?_⟩
              intro he
              simp only [Prod.mk.injEq] at he
              apply h4 k
              rw [← he.1, ← he.2]; simp
            · exact h3 r hr
    | exit k =>
      cases hk : s.hooks k with
      | none =>
        have hnok : ∀ r ∈ l, r.hook ≠ k := by
          intro r hr he
          have := hh r hr
          rw [he, hk] at this; simp at this
        have hl : (l.filter fun r => r.hook ≠ k) = l := by
          rw [List.filter_eq_self]; intro r hr; simpa using hnok r hr
        have hstep : s.step (.exit k) = s := by simp only [St.step, hk]
        show Inv ((s.step (.exit k)).run es) (live es (l.filter fun r => r.hook ≠ k))
        rw [hl, hstep]
        exact ih hd2 ⟨hs, hi, hh, hn1, hn2⟩ (fun k' op' it' hm => hf k' op' it' (by simp [hm]))
          (fun k' op' it' hs' => (hdd k' op' it' hs').imp id fun h => ⟨h.1, fun h' hm => h.2 h' (by simp [hm])⟩)
      | some q =>
        obtain ⟨op, it⟩ := q
        have hstep : s.step (.exit k) = ⟨unregister s.table op it, s.hooks⟩ := by simp only [St.step, hk]
        show Inv ((s.step (.exit k)).run es) (live es (l.filter fun r => r.hook ≠ k))
        rw [hstep]
        have hsub : (l.filter fun r => r.hook ≠ k).Sublist l := List.filter_sublist
        refine ih hd2 ⟨?_, ?_, ?_, hn1.sublist (hsub.map _), hn2.sublist (hsub.map _)⟩ ?_ ?_
        · intro o
          simp only [unregister]
          split_ifs
          · exact sorted_erase (hs op) it
          · exact hs o
        · intro o p
          simp only [unregister]
          rcases hdd k op it hk with ⟨r, hr, hrk, rfl, rfl⟩ | ⟨hnone, _⟩
          · rw [← hrk, live_erase hn1 hn2 hr o]
            by_cases ho : o = r.op
            · rw [if_pos ho, if_pos ho.symm, filter_erase_of_nodup, filter_erase_of_nodup, hi r.op p, ho]
            · rw [if_neg ho, if_neg (Ne.symm ho), hi o p]
          · have hl : (l.filter fun r => r.hook ≠ k) = l := by
              rw [List.filter_eq_self]; intro r hr; simpa using (hnone r hr).1
            rw [hl]
            by_cases ho : o = op
            · subst ho
              rw [if_pos rfl, List.erase_of_not_mem]
              · exact hi o p
              · intro hm
                obtain ⟨r, hr, h3, h4⟩ := (inv_mem ⟨hs, hi, hh, hn1, hn2⟩).1 hm
                exact (hnone r hr).2 (by rw [h3, h4])
            · rw [if_neg ho]; exact hi o p
        · intro r hr; exact hh r (List.mem_filter.1 hr).1
        · intro k' op' it' hm
          obtain ⟨h1, h2⟩ := hf k' op' it' (by simp [hm])
          exact ⟨h1, fun r hr => h2 r (List.mem_filter.1 hr).1⟩
        · intro k' op' it' hs'
          rcases hdd k' op' it' hs' with ⟨r, hr, h3, h4, h5⟩ | ⟨h3, h4⟩
          · by_cases hkk : k' = k
            · right
              have hrk : r.hook = k := h3.trans hkk
              refine ⟨?_, ?_⟩
              · intro x hx
                rw [List.mem_filter] at hx
                have hxk : x.hook ≠ k := by simpa using hx.2
                refine ⟨by rw [hkk]; exact hxk, ?_⟩
                intro he
                rw [← h4, ← h5] at he
                have : x = r := by
                  exact List.inj_on_of_nodup_map hn2 hx.1 hr he
                rw [this] at hxk; exact hxk hrk
              · intro h' hm
                obtain ⟨_, h6⟩ := hf h' op' it' (by simp [hm])
                exact h6 r hr (by rw [h4, h5])
            · left
              exact ⟨r, List.mem_filter.2 ⟨hr, by simpa using fun he => hkk (h3 ▸ he)⟩, h3, h4, h5⟩
          · right
            exact ⟨fun r hr => h3 r (List.mem_filter.1 hr).1, fun h' hm => h4 h' (by simp [hm])⟩

theorem init_inv : Inv St.init [] := by
  refine ⟨fun _ => List.Pairwise.nil, ?_, by simp, by simp, by simp⟩
  intro op p; rfl

theorem dispatch_picks {s : St} {l : List Reg} (h : Inv s l) (op : String) (holds : ℕ → Bool) : Picks l op holds (dispatch s.table op holds) := by
  unfold dispatch
  cases hf : (s.table op).find? fun it => holds it.pred with
  | none =>
    left
    refine ⟨rfl, ?_⟩
    intro x hx ho
    have := List.find?_eq_none.1 hf x.it ((inv_mem h).2 ⟨x, hx, ho, rfl⟩)
    simpa using this
  | some it =>
    right
    obtain ⟨hp, a, b, hab, hno⟩ := List.find?_eq_some_iff_append.1 hf
    have hsorted := h.1 op
    have hfil := h.2.1 op it.prio
    rw [hab] at hsorted hfil
    rw [List.filter_append, List.filter_cons_of_pos (by simp)] at hfil
    -- split the live registrations at the same place
    have hsplit : ∀ (l : List Reg), (a.filter fun x => x.prio = it.prio) ++ it :: (b.filter fun x => x.prio = it.prio) =
        ((l.filter fun r => r.op = op).map (·.it)).filter (fun x => x.prio = it.prio) →
        ∃ newer x older, l = newer ++ x :: older ∧ x.op = op ∧ x.it = it ∧
          ((newer.filter fun r => r.op = op).map (·.it)).filter (fun x => x.prio = it.prio) = a.filter fun x => x.prio = it.prio := by
      generalize (a.filter fun x => x.prio = it.prio) = a'
      generalize (b.filter fun x => x.prio = it.prio) = b'
      intro l
      induction l generalizing a' with
      | nil => intro h; simp at h
      | cons r rs ih =>
        intro hl
        by_cases hq : r.op = op ∧ r.it.prio = it.prio
        · rw [List.filter_cons_of_pos (by simpa using hq.1), List.map_cons, List.filter_cons_of_pos (by simpa using hq.2)] at hl
          cases a' with
          | nil =>
            rw [List.nil_append] at hl
            obtain ⟨h1, _⟩ := List.cons.inj hl
            exact ⟨[], r, rs, rfl, hq.1, h1.symm, rfl⟩
          | cons y ys =>
            rw [List.cons_append] at hl
            obtain ⟨h1, h2⟩ := List.cons.inj hl
            obtain ⟨n, x, o, h3, h4, h5, h6⟩ := ih ys h2
            refine ⟨r :: n, x, o, by rw [h3]; rfl, h4, h5, ?_⟩
            rw [List.filter_cons_of_pos (by simpa using hq.1), List.map_cons, List.filter_cons_of_pos (by simpa using hq.2), h6, h1]
        · have hskip : ∀ rs : List Reg, (((r :: rs).filter fun r => r.op = op).map (·.it)).filter (fun x => x.prio = it.prio) =
              ((rs.filter fun r => r.op = op).map (·.it)).filter (fun x => x.prio = it.prio) := by
            intro rs
            by_cases ho : r.op = op
            · have hpr : ¬ r.it.prio = it.prio := fun hh => hq ⟨ho, hh⟩
              rw [List.filter_cons_of_pos (by simpa using ho), List.map_cons, List.filter_cons_of_neg (by simpa using hpr)]
            · rw [List.filter_cons_of_neg (by simpa using ho)]
          rw [hskip] at hl
          obtain ⟨n, x, o, h3, h4, h5, h6⟩ := ih a' hl
          exact ⟨r :: n, x, o, by rw [h3]; rfl, h4, h5, by rw [hskip, h6]⟩
    obtain ⟨newer, x, older, hl, hxo, hxi, hnew⟩ := hsplit l hfil
    have hbest : ∀ y ∈ l, y.op = op → holds y.it.pred = true → it.prio ≤ y.it.prio := by
      intro y hy hyo hyp
      have hm := (inv_mem h).2 ⟨y, hy, hyo, rfl⟩
      rw [hab, List.mem_append, List.mem_cons] at hm
      rcases hm with hm | hm | hm
      · have := hno _ hm
        rw [hyp] at this; simp at this
      · rw [hm]; exact Nat.le_refl _
      · unfold Sorted at hsorted
        rw [List.pairwise_append] at hsorted
        exact (List.pairwise_cons.1 hsorted.2.1).1 _ hm
    refine ⟨newer, x, older, hl, by rw [hxi]; rfl, hxo, by rw [hxi]; exact hp, ?_, ?_⟩
    · intro y hy hyo hyp
      rw [hxi]
      have h1 := hbest y (by rw [hl]; simp [hy]) hyo hyp
      rcases Nat.lt_or_eq_of_le h1 with h2 | h2
      · exact h2
      · exfalso
        have : y.it ∈ ((newer.filter fun r => r.op = op).map (·.it)).filter (fun x => x.prio = it.prio) := by
          rw [List.mem_filter]
          exact ⟨List.mem_map.2 ⟨y, List.mem_filter.2 ⟨hy, by simpa using hyo⟩, rfl⟩, by simpa using h2.symm⟩
        rw [hnew, List.mem_filter] at this
        have := hno _ this.1
        rw [hyp] at this; simp at this
    · intro y hy hyo hyp
      rw [hxi]
      exact hbest y (by rw [hl]; simp [hy]) hyo hyp

/-- The choice is determined. -/
theorem picks_unique {l : List Reg} {op : String} {holds : ℕ → Bool} {r r' : Option ℕ} (h : Picks l op holds r) (h' : Picks l op holds r') :
    r = r' := by
  rcases h with ⟨rfl, h1⟩ | ⟨n, x, o, hl, rfl, hxo, hxp, hx1, hx2⟩
  · rcases h' with ⟨rfl, _⟩ | ⟨n, x, o, hl, _, hxo, hxp, _⟩
    · rfl
    · have := h1 x (by rw [hl]; simp) hxo
      rw [hxp] at this; simp at this
  · rcases h' with ⟨rfl, h1⟩ | ⟨n', x', o', hl', rfl, hxo', hxp', hx1', hx2'⟩
    · have := h1 x (by rw [hl]; simp) hxo
      rw [hxp] at this; simp at this
    · rw [hl] at hl'
      rcases List.append_eq_append_iff.1 hl' with ⟨m, h1, h2⟩ | ⟨m, h1, h2⟩
      · cases m with
        | nil => simp only [List.nil_append, List.cons.injEq] at h2; rw [h2.1]
        | cons y ys =>
          rw [List.cons_append] at h2
          obtain ⟨rfl, h3⟩ := List.cons.inj h2
          have e1 := hx1' x (by rw [h1]; simp) hxo hxp
          have e2 := hx2 x' (by rw [h3]; simp) hxo' hxp'
          omega
      · cases m with
        | nil => simp only [List.nil_append, List.cons.injEq] at h2; rw [h2.1]
        | cons y ys =>
          rw [List.cons_append] at h2
          obtain ⟨rfl, h3⟩ := List.cons.inj h2
          have e1 := hx1 x' (by rw [h1]; simp) hxo' hxp'
          have e2 := hx2' x (by rw [h3]; simp) hxo hxp
          omega

/-! ### Properties -/

/-- **C28.** After any history of registrations and ended registrations, in any order, with all registrations different, dispatch returns
the most recent registration in force of the best priority that accepts the arguments, and nothing if none does. Missing for the full claim: histories that
register the same kernel, predicate and priority twice, see `duplicate_registration_wrong_removal`. -/
theorem dispatch_most_recent_best_partial (es : List Event) (hd : Distinct es) (op : String) (holds : ℕ → Bool) :
    Picks (live es []) op holds (dispatch (St.init.run es).table op holds) := by
  apply dispatch_picks
  refine run_inv es hd init_inv ?_ ?_
  · intro h op it _; exact ⟨rfl, by simp⟩
  · intro h op it hs; simp [St.init] at hs

/-- **C29.** Ending a registration leaves dispatch, for all operators and arguments, as if it had never been made, no matter what else was
registered or ended in between. Missing for the full claim: histories that register the same kernel, predicate and priority twice
and end the registrations in another than the reverse order. -/
theorem ended_registration_has_no_effect_partial (pre mid : List Event) (h : ℕ) (op : String) (it : Item)
    (hd : Distinct (pre ++ .reg h op it :: mid)) (op' : String) (holds : ℕ → Bool) :
    dispatch (St.init.run (pre ++ .reg h op it :: mid ++ [.exit h])).table op' holds =
      dispatch (St.init.run (pre ++ mid)).table op' holds := by
  have hd1 : Distinct (pre ++ .reg h op it :: mid ++ [.exit h]) := by
    unfold Distinct at hd ⊢
    rw [List.pairwise_append]
    refine ⟨hd, by simp, ?_⟩
    intro a _ b hb
    rw [List.mem_singleton] at hb
    subst hb
    cases a <;> trivial
  have hd2 : Distinct (pre ++ mid) := by
    unfold Distinct at hd ⊢
    exact hd.sublist (List.Sublist.append (List.Sublist.refl _) (List.sublist_cons_self _ _))
  have hlive : live (pre ++ .reg h op it :: mid ++ [.exit h]) [] = live (pre ++ mid) [] := by
    have happ : ∀ (a b : List Event) (l : List Reg), live (a ++ b) l = live b (live a l) := by
      intro a
      induction a with
      | nil => intro b l; rfl
      | cons e a ih => intro b l; cases e <;> exact ih _ _
    have hnot : ∀ r ∈ live pre [], r.hook ≠ h := by
      have gen : ∀ (a : List Event) (l : List Reg), (∀ op it, .reg h op it ∉ a) → (∀ r ∈ l, r.hook ≠ h) → ∀ r ∈ live a l, r.hook ≠ h := by
        intro a
        induction a with
        | nil => intro l _ hl; exact hl
        | cons e a ih =>
          intro l ha hl
          cases e with
          | reg k o i =>
            refine ih _ (fun op it hm => ha op it (by simp [hm])) ?_
            intro r hr
            rcases List.mem_cons.1 hr with rfl | hr
            · rintro rfl; exact ha o i (by simp)
            · exact hl r hr
          | exit k => exact ih _ (fun op it hm => ha op it (by simp [hm])) fun r hr => hl r (List.mem_filter.1 hr).1
      refine gen pre [] ?_ (by simp)
      intro o i hm
      unfold Distinct at hd
      have := (List.pairwise_append.1 hd).2.2 _ hm (.reg h op it) (by simp)
      exact this.1 rfl
    have hmid : ∀ o i, .reg h o i ∉ mid := by
      intro o i hm
      unfold Distinct at hd
      have := (List.pairwise_cons.1 (List.pairwise_append.1 hd).2.1).1 _ hm
      exact this.1 rfl
    rw [List.append_assoc, happ pre, happ pre, List.cons_append]
    show live (mid ++ [.exit h]) (⟨h, op, it⟩ :: live pre []) = live mid (live pre [])
    have gen : ∀ (a : List Event) (l l' : List Reg), (∀ op it, .reg h op it ∉ a) → (l.filter fun r => r.hook ≠ h) = l' →
        live (a ++ [.exit h]) l = live a l' := by
      intro a
      induction a with
      | nil => intro l l' _ hl; exact hl
      | cons e a ih =>
        intro l l' ha hl
        cases e with
        | reg k o i =>
          refine ih _ _ (fun op it hm => ha op it (by simp [hm])) ?_
          have hk : k ≠ h := by rintro rfl; exact ha o i (by simp)
          rw [List.filter_cons_of_pos (by simpa using hk), hl]
        | exit k =>
          refine ih _ _ (fun op it hm => ha op it (by simp [hm])) ?_
          rw [← hl, List.filter_filter, List.filter_filter]
          congr 1
          funext r
          rw [Bool.and_comm]
    apply gen _ _ _ hmid
    rw [List.filter_cons_of_neg (by simp), List.filter_eq_self]
    intro r hr
    simpa using hnot r hr
  have h1 := dispatch_most_recent_best_partial _ hd1 op' holds
  have h2 := dispatch_most_recent_best_partial _ hd2 op' holds
  rw [hlive] at h1
  exact picks_unique h1 h2

/-- **C29.** Properly nested blocks restore the registry exactly, even if the same kernel is registered several times. -/
theorem nested_blocks_restore (es : List Event) (hn : Nested es) (s : St) (hs : ∀ op, Sorted (s.table op)) :
    (s.run es).table = s.table := by
  induction hn generalizing s with
  | nil => rfl
  | @block h op it body rest _ _ hb ihb ihr =>
    have hs1 : ∀ o, Sorted ((s.step (.reg h op it)).table o) := by
      intro o
      simp only [St.step, register]
      split_ifs
      · obtain ⟨a, b, hab, hins, hlt, hge⟩ := insert_split (hs op) it
        rw [hins]; exact insert_sorted (hs op) hab hlt hge
      · exact hs o
    have hrun : s.run (.reg h op it :: body ++ .exit h :: rest) = (((s.step (.reg h op it)).run body).step (.exit h)).run rest := by
      unfold St.run
      rw [List.cons_append, List.foldl_cons, List.foldl_append, List.foldl_cons]
    have hhook : ∀ (es : List Event) (s : St), (∀ op it, .reg h op it ∉ es) → (s.run es).hooks h = s.hooks h := by
      intro es
      induction es with
      | nil => intro s _; rfl
      | cons e es ih =>
        intro s hes
        have : (s.run (e :: es)) = (s.step e).run es := rfl
        rw [this, ih _ (fun op it hm => hes op it (by simp [hm]))]
        cases e with
        | reg k o i =>
          have hk : h ≠ k := by rintro rfl; exact hes o i (by simp)
          simp only [St.step]; rw [if_neg hk]
        | exit k =>
          simp only [St.step]
          split <;> rfl
    have htab := ihb _ hs1
    have hk : ((s.step (.reg h op it)).run body).hooks h = some (op, it) := by
      rw [hhook body _ hb]; simp [St.step]
    have hback : (((s.step (.reg h op it)).run body).step (.exit h)).table = s.table := by
      simp only [St.step] at hk ⊢
      rw [hk]
      funext o
      simp only [unregister]
      simp only [St.step] at htab
      rw [htab]
      simp only [register]
      by_cases ho : o = op
      · rw [if_pos ho, ho]; simp only [if_true]; exact erase_insert (hs op) it
      · rw [if_neg ho, if_neg ho]
    rw [hrun, ihr _ (by rw [hback]; exact hs), hback]

/-- **C28, deviation.** With the same kernel and predicate registered twice, ending the older registration removes the newer one instead, so the
dispatcher prefers a kernel that was registered before the one still in force. -/
theorem duplicate_registration_wrong_removal :
    ∃ es : List Event, ¬ Picks (live es []) "f" (fun _ => true) (dispatch (St.init.run es).table "f" fun _ => true) := by
  refine ⟨[.reg 0 "f" ⟨1, 10, 0⟩, .reg 1 "f" ⟨2, 20, 0⟩, .reg 2 "f" ⟨1, 10, 0⟩, .exit 0], ?_⟩
  intro h
  have h1 : Picks (live [.reg 0 "f" ⟨1, 10, 0⟩, .reg 1 "f" ⟨2, 20, 0⟩, .reg 2 "f" ⟨1, 10, 0⟩, .exit 0] []) "f" (fun _ => true) (some 10) := by
    right
    exact ⟨[], ⟨2, "f", ⟨1, 10, 0⟩⟩, [⟨1, "f", ⟨2, 20, 0⟩⟩], by decide, rfl, rfl, rfl, by simp, by simp⟩
  have := picks_unique h h1
  revert this
  decide

/-! ### Concrete cases -/

/-- A fallback registered last does not shadow a default kernel; an ended registration does not count. -/
example : Distinct [.reg 0 "linear" ⟨1, 10, 0⟩, .reg 1 "linear" ⟨2, 20, 1⟩, .reg 2 "linear" ⟨3, 30, 0⟩, .reg 3 "conv" ⟨1, 10, 0⟩, .exit 2] := by
  simp [Distinct]
example : dispatch (St.init.run [.reg 0 "linear" ⟨1, 10, 0⟩, .reg 1 "linear" ⟨2, 20, 1⟩, .reg 2 "linear" ⟨3, 30, 0⟩, .exit 2]).table
    "linear" (fun _ => true) = some 10 := by decide
example : dispatch (St.init.run [.reg 0 "linear" ⟨1, 10, 0⟩, .reg 1 "linear" ⟨2, 20, 1⟩, .reg 2 "linear" ⟨3, 30, 0⟩]).table
    "linear" (fun p => p == 2) = some 20 := by decide
/-- Nested blocks registering the same item twice. -/
example : Nested [.reg 0 "f" ⟨1, 10, 0⟩, .reg 1 "f" ⟨2, 20, 0⟩, .reg 2 "f" ⟨1, 10, 0⟩, .exit 2, .exit 1, .exit 0] :=
  .block (body := [.reg 1 "f" ⟨2, 20, 0⟩, .reg 2 "f" ⟨1, 10, 0⟩, .exit 2, .exit 1]) (rest := [])
    (.block (body := [.reg 2 "f" ⟨1, 10, 0⟩, .exit 2]) (rest := []) (.block (body := []) (rest := []) .nil .nil (by simp)) .nil (by simp))
    .nil (by simp)

end FF.Dispatch
