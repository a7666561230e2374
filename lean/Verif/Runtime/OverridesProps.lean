import Verif.Runtime.Overrides

/-! # Quantizer overrides: properties (C32) -/

namespace FF.Overrides

variable {A R : Type}

/-! ### Specification -/

/-- The meaning of an override around a function: each time it calls its continuation, the function is applied. -/
def Body.meaning (f : A → R) : Body A R → R
  | .ret r => r
  | .call a k => (k (f a)).meaning f

/-- Overrides wrapped around a function, the last of the list outermost. -/
def wrapped (f : A → R) : List (Override A R) → A → R
  | [] => f
  | o :: os => wrapped (fun a => (o a).meaning f) os

/-- The overrides in force after a history, in registration order; `n` is the number of registrations so far (on all quantizers). -/
def inForce : List (Event A R) → ℕ → List (ℕ × Override A R) → List (ℕ × Override A R)
  | [], _, l => l
  | .register o :: es, n, l => inForce es (n + 1) (l ++ [(n, o)])
  | .remove id :: es, n, l => inForce es n (l.filter fun p => p.1 ≠ id)
  | .other :: es, n, l => inForce es (n + 1) l

/-- The override calls its continuation at most once, whatever that returns. -/
def Body.AtMostOnce : Body A R → Prop
  | .ret _ => True
  | .call _ k => ∀ r, ∃ r', k r = .ret r'

/-! ### Lemmas -/

theorem wrapped_append (f : A → R) (os : List (Override A R)) (o : Override A R) (a : A) :
    wrapped f (os ++ [o]) a = (o a).meaning (wrapped f os) := by
  induction os generalizing f with
  | nil => rfl
  | cons p os ih => exact ih _

theorem callWrapped_once (base : A → R) (st : List (Override A R)) (h : ∀ o ∈ st, ∀ a, (o a).AtMostOnce) (n : ℕ) (hn : st.length ≤ n) (a : A) :
    (callWrapped base n st a).1 = wrapped base st.reverse a := by
  induction st generalizing n a with
  | nil => cases n <;> rfl
  | cons o st ih =>
    cases n with
    | zero => simp at hn
    | succ n =>
      rw [List.reverse_cons, wrapped_append]
      simp only [callWrapped]
      have ho := h o (by simp) a
      cases hb : o a with
      | ret r => rfl
      | call a' k =>
        rw [hb] at ho
        obtain ⟨r', hr'⟩ := ho (callWrapped base n st a').1
        have e := ih (fun o' ho' => h o' (by simp [ho'])) n (by simpa using hn) a'
        simp only [Body.exec, Body.meaning]
        rw [hr', ← e, hr']
        rfl

/-- Ids are increasing and below the counter. -/
def Inv (s : St A R) (n : ℕ) (l : List (ℕ × Override A R)) : Prop :=
  s.map = l ∧ s.next = n ∧ (l.map (·.1)).Pairwise (· < ·) ∧ ∀ p ∈ l, p.1 < n

theorem run_inv (es : List (Event A R)) {s : St A R} {n : ℕ} {l : List (ℕ × Override A R)} (h : Inv s n l) :
    (s.run es).map = inForce es n l ∧ ((inForce es n l).map (·.1)).Pairwise (· < ·) := by
  induction es generalizing s n l with
  | nil => exact ⟨h.1, h.2.2.1⟩
  | cons e es ih =>
    obtain ⟨h1, h2, h3, h4⟩ := h
    cases e with
    | register o =>
      refine ih (s := (s.register o).1) ⟨?_, ?_, ?_, ?_⟩
      · simp [St.register, h1, h2]
      · simp [St.register, h2]
      · rw [List.map_append, List.pairwise_append]
        refine ⟨h3, by simp, ?_⟩
        intro a ha b hb
        obtain ⟨p, hp, rfl⟩ := List.mem_map.1 ha
        simp only [List.map_cons, List.map_nil, List.mem_singleton] at hb
        rw [hb]; exact h4 p hp
      · intro p hp
        rcases List.mem_append.1 hp with hp | hp
        · exact Nat.lt_succ_of_lt (h4 p hp)
        · rw [List.mem_singleton.1 hp]; exact Nat.lt_succ_self _
    | remove id =>
      refine ih (s := s.remove id) ⟨?_, ?_, ?_, ?_⟩
      · simp [St.remove, h1]
      · simp [St.remove, h2]
      · exact h3.sublist (List.filter_sublist.map _)
      · intro p hp; exact h4 p (List.mem_filter.1 hp).1
    | other =>
      refine ih (s := { s with next := s.next + 1 }) ⟨h1, by simp [h2], h3, fun p hp => Nat.lt_succ_of_lt (h4 p hp)⟩

theorem sortedItems_eq {m : List (ℕ × Override A R)} (h : (m.map (·.1)).Pairwise (· < ·)) : sortedItems m = m := by
  unfold sortedItems
  apply List.Pairwise.insertionSort_eq
  rw [List.pairwise_map] at h
  exact h.imp fun hab => Nat.le_of_lt hab

/-! ### Properties -/

/-- **C32.** After any history of registrations and removals, in any order and interleaved with registrations on other quantizers, calling a
quantizer whose overrides call their continuation at most once runs exactly the overrides in force around its quantization function,
the most recently registered outermost. Missing for the full claim: overrides that call their continuation more than once, see
`second_continuation_call_skips_overrides`. -/
theorem overrides_wrap_partial (es : List (Event A R)) (quantize : A → R)
    (h : ∀ p ∈ inForce es 0 [], ∀ a, (p.2 a).AtMostOnce) (a : A) :
    (({} : St A R).run es).forward quantize a = wrapped quantize ((inForce es 0 []).map (·.2)) a := by
  obtain ⟨h1, h2⟩ := run_inv es (s := ({} : St A R)) (n := 0) (l := []) ⟨rfl, rfl, by simp, by simp⟩
  unfold St.forward
  rw [h1]
  by_cases hl : (inForce es 0 []).isEmpty
  · rw [if_pos hl]
    have : inForce es 0 [] = [] := by simpa using hl
    rw [this]; rfl
  · rw [if_neg hl]
    simp only
    rw [sortedItems_eq h2, callWrapped_once, List.reverse_reverse]
    · intro o ho a
      rw [List.mem_reverse] at ho
      obtain ⟨p, hp, rfl⟩ := List.mem_map.1 ho
      exact h p hp a
    · exact Nat.le_refl _

/-- **C32.** Removing an override makes every later call behave as if it had never been registered (its id was just never used), for
arbitrary overrides and whatever happened in between. -/
theorem removed_override_has_no_effect (pre mid : List (Event A R)) (o : Override A R) (quantize : A → R) (a : A) :
    ((({} : St A R).run (pre ++ .register o :: mid)).remove (({} : St A R).run pre).next).forward quantize a =
      (({} : St A R).run (pre ++ .other :: mid)).forward quantize a := by
  have hnext : ∀ (es : List (Event A R)) (s : St A R), (∀ p ∈ s.map, p.1 < s.next) → ∀ p ∈ (s.run es).map, p.1 < (s.run es).next := by
    intro es
    induction es with
    | nil => intro s h; exact h
    | cons e es ih =>
      intro s h
      refine ih (s.step e) ?_
      cases e with
      | register o =>
        intro p hp
        simp only [St.step, St.register, List.mem_append, List.mem_singleton] at hp ⊢
        rcases hp with hp | rfl
        · exact Nat.lt_succ_of_lt (h p hp)
        · exact Nat.lt_succ_self _
      | remove id =>
        intro p hp
        simp only [St.step, St.remove] at hp ⊢
        exact h p (List.mem_filter.1 hp).1
      | other => intro p hp; exact Nat.lt_succ_of_lt (h p hp)
  have happ : ∀ (a b : List (Event A R)) (s : St A R), s.run (a ++ b) = (s.run a).run b := by
    intro a b s; unfold St.run; rw [List.foldl_append]
  have gen : ∀ (es : List (Event A R)) (s s' : St A R) (id : ℕ), id < s.next → s.next = s'.next →
      s.map.filter (fun p => p.1 ≠ id) = s'.map.filter (fun p => p.1 ≠ id) → (∀ p ∈ s'.map, p.1 ≠ id) →
      ((s.run es).map.filter fun p => p.1 ≠ id) = (s'.run es).map := by
    intro es
    induction es with
    | nil =>
      intro s s' id _ _ h3 h4
      show s.map.filter _ = s'.map
      rw [h3, List.filter_eq_self]
      intro p hp; simpa using h4 p hp
    | cons e es ih =>
      intro s s' id h1 h2 h3 h4
      refine ih (s.step e) (s'.step e) id ?_ ?_ ?_ ?_
      · cases e <;> simp only [St.step, St.register, St.remove] <;> omega
      · cases e <;> simp only [St.step, St.register, St.remove, h2]
      · cases e with
        | register o => simp only [St.step, St.register, List.filter_append, h3, h2]
        | remove i =>
          simp only [St.step, St.remove]
          rw [List.filter_filter, List.filter_filter]
          have e1 : ∀ l : List (ℕ × Override A R), l.filter (fun p => decide (p.1 ≠ id) && decide (p.1 ≠ i)) =
              (l.filter fun p => p.1 ≠ id).filter fun p => p.1 ≠ i := by
            intro l; rw [List.filter_filter]; congr 1; funext p; rw [Bool.and_comm]
          rw [e1, e1, h3]
        | other => exact h3
      · cases e with
        | register o =>
          intro p hp
          simp only [St.step, St.register, List.mem_append, List.mem_singleton] at hp
          rcases hp with hp | rfl
          · exact h4 p hp
          · simp only; omega
        | remove i => intro p hp; exact h4 p (List.mem_filter.1 hp).1
        | other => exact h4
  have hpre := hnext pre ({} : St A R) (by simp)
  have hmap : ((({} : St A R).run (pre ++ .register o :: mid)).remove (({} : St A R).run pre).next).map =
      (({} : St A R).run (pre ++ .other :: mid)).map := by
    rw [happ, happ]
    show ((((({} : St A R).run pre).step (.register o)).run mid).map.filter _) = (((({} : St A R).run pre).step .other).run mid).map
    apply gen
    · simp [St.step, St.register]
    · simp [St.step, St.register]
    · simp [St.step, St.register, List.filter_append]
    · intro p hp
      exact Nat.ne_of_lt (hpre p hp)
  unfold St.forward
  rw [hmap]

/-- **C32, deviation.** An override that calls its continuation twice gets different functions: the first call consumes the overrides below it, the
second one bypasses them. Here an
override that adds 1 is below an override that adds the results of two calls. -/
theorem second_continuation_call_skips_overrides :
    ∃ es : List (Event ℤ ℤ), ∃ q : ℤ → ℤ, ∃ a,
      (({} : St ℤ ℤ).run es).forward q a ≠ wrapped q ((inForce es 0 []).map (·.2)) a :=
  ⟨[.register fun a => .call (a + 1) .ret, .register fun a => .call a fun r => .call a fun r' => .ret (r + r')], id, 10, by decide⟩

/-! ### Concrete cases -/

/-- Ids 0 and 2 on this quantizer, 1 elsewhere, 0 removed: `(·*10)` inside `(+1 after)`. -/
example : ∀ p ∈ inForce [.register fun a : ℤ => Body.call (a + 5) .ret, .other, .register fun a => .call (a * 10) .ret,
    .register fun a => .call a fun r => .ret (r + 1), .remove 0] 0 [], ∀ a, (p.2 a).AtMostOnce := by
  intro p hp a
  simp only [inForce, List.nil_append, List.cons_append, List.filter_cons, List.filter_nil] at hp
  simp at hp
  rcases hp with rfl | rfl
  · intro r; exact ⟨_, rfl⟩
  · intro r; exact ⟨_, rfl⟩
example : (({} : St ℤ ℤ).run [.register fun a => .call (a + 5) .ret, .other, .register fun a => .call (a * 10) .ret,
    .register fun a => .call a fun r => .ret (r + 1), .remove 0]).forward (fun a => -a) 3 = -29 := by decide

end FF.Overrides
