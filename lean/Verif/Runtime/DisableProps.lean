import Verif.Runtime.Disable

/-! # Disabling and enabling quantization: properties (C33) -/

namespace FF.Disable

open FF.Overrides FF.Scope

variable {Q A : Type} [DecidableEq Q]
set_option linter.unusedSectionVars false

/-! ### Specification -/

/-- A layer around a quantizer: a "disable" that may have been switched to "enabled", or an override of the user. -/
inductive Layer (A : Type) where
  | dis (enabled : Bool)
  | user (f : UserOverride A)

/-- A call through a layer when `inner` is what is below it. -/
def Layer.call (inner : A → A) : Layer A → A → A
  | .dis true, a => inner a
  | .dis false, a => a
  | .user f, a =>
    match f a with
    | .inl r => r
    | .inr (a', k) => k (inner a')

/-- The layers of each quantizer, innermost first, and the strict quantization flag. -/
structure Env (Q A : Type) where
  layers : Q → List (Layer A)
  strict : Bool

/-- A call of quantizer `q`. -/
def Env.call (quantize : Q → A → A) (e : Env Q A) (q : Q) (a : A) : A :=
  (e.layers q).foldl (fun inner l => l.call inner) (quantize q) a

def Env.push (e : Env Q A) (q : Q) (l : Layer A) : Env Q A := { e with layers := Function.update e.layers q (e.layers q ++ [l]) }

/-- Enabling switches all "disable" layers there are. -/
def Layer.enable : Layer A → Layer A
  | .dis _ => .dis true
  | .user f => .user f

/-- What the blocks mean for the code inside them. -/
def Env.enter : Block Q A → Env Q A → Option (Env Q A)
  | .disable qs, e => some { qs.foldl (fun e q => e.push q (.dis false)) e with strict := false }
  | .enable qs, e => some { e with layers := fun q => if q ∈ qs then (e.layers q).map Layer.enable else e.layers q }
  | .override q f, e => some (e.push q (.user f))
  | .strict v, e => some { e with strict := v }

def Env.observe (quantize : Q → A → A) : Look Q A → Env Q A → A ⊕ Bool
  | .call q a, e => .inl (e.call quantize q a)
  | .strict, e => .inr e.strict

/-- No overrides anywhere; `n` overrides were created and removed before. -/
def fresh (n : ℕ) (strict : Bool) : St Q A := ⟨fun _ => [], fun _ => false, n, strict⟩

/-! ### Lemmas -/

def toLayer (enabled : ℕ → Bool) (p : ℕ × Kind A) : Layer A :=
  match p.2 with
  | .dq => .dis (enabled p.1)
  | .user f => .user f

structure Rel (s : St Q A) (e : Env Q A) : Prop where
  layers : ∀ q, (s.ovs q).map (toLayer s.enabled) = e.layers q
  strict : s.strict = e.strict
  bound : ∀ q, ∀ p ∈ s.ovs q, p.1 < s.next
  sorted : ∀ q, ((s.ovs q).map (·.1)).Pairwise (· < ·)
  owner : ∀ q q', ∀ p ∈ s.ovs q, ∀ p' ∈ s.ovs q', p.1 = p'.1 → q = q' ∧ p = p'

structure Same (s s' : St Q A) : Prop where
  ovs : s'.ovs = s.ovs
  strict : s'.strict = s.strict
  next : s.next ≤ s'.next
  enabled : ∀ i < s.next, s'.enabled i = s.enabled i

theorem Rel.of_same {s s' : St Q A} {e : Env Q A} (h : Same s s') (hr : Rel s e) : Rel s' e where
  layers q := by
    rw [h.ovs, ← hr.layers q]
    refine List.map_congr_left fun p hp => ?_
    unfold toLayer
    rw [h.enabled p.1 (hr.bound q p hp)]
  strict := h.strict.trans hr.strict
  bound q p hp := by rw [h.ovs] at hp; exact Nat.lt_of_lt_of_le (hr.bound q p hp) h.next
  sorted q := by rw [h.ovs]; exact hr.sorted q
  owner q q' p hp p' hp' := by rw [h.ovs] at hp hp'; exact hr.owner q q' p hp p' hp'

theorem Rel.add {s : St Q A} {e : Env Q A} (h : Rel s e) (q : Q) (k : Kind A) :
    Rel (s.add q k) (e.push q (match k with | .dq => .dis false | .user f => .user f)) where
  layers q' := by
    have old : (s.ovs q').map (toLayer (Function.update s.enabled s.next false)) = e.layers q' := by
      rw [← h.layers q']
      refine List.map_congr_left fun p hp => ?_
      unfold toLayer
      rw [Function.update_of_ne (Nat.ne_of_lt (h.bound q' p hp))]
    by_cases hq : q' = q
    · subst hq
      simp only [St.add, Env.push, Function.update_self, List.map_append, old, List.map_cons, List.map_nil]
      cases k <;> simp [toLayer]
    · simp only [St.add, Env.push, Function.update_of_ne hq, old]
  strict := h.strict
  bound q' p hp := by
    by_cases hq : q' = q
    · subst hq
      simp only [St.add, Function.update_self, List.mem_append, List.mem_singleton] at hp ⊢
      rcases hp with hp | rfl
      · exact Nat.lt_succ_of_lt (h.bound _ _ hp)
      · exact Nat.lt_succ_self _
    · simp only [St.add, Function.update_of_ne hq] at hp ⊢
      exact Nat.lt_succ_of_lt (h.bound _ _ hp)
  sorted q' := by
    by_cases hq : q' = q
    · subst hq
      simp only [St.add, Function.update_self, List.map_append, List.map_cons, List.map_nil]
      rw [List.pairwise_append]
      refine ⟨h.sorted q', by simp, ?_⟩
      intro a ha b hb
      obtain ⟨p, hp, rfl⟩ := List.mem_map.1 ha
      rw [List.mem_singleton.1 hb]
      exact h.bound _ _ hp
    · simp only [St.add, Function.update_of_ne hq]; exact h.sorted q'
  owner := by
    have key : ∀ q', ∀ p ∈ (s.add q k).ovs q', p ∈ s.ovs q' ∨ (q' = q ∧ p = (s.next, k)) := by
      intro q' p hp
      by_cases hq : q' = q
      · subst hq
        simp only [St.add, Function.update_self, List.mem_append, List.mem_singleton] at hp
        rcases hp with hp | hp
        · exact .inl hp
        · exact .inr ⟨rfl, hp⟩
      · simp only [St.add, Function.update_of_ne hq] at hp; exact .inl hp
    intro q1 q2 p1 h1 p2 h2 he
    rcases key q1 p1 h1 with g1 | ⟨e1, f1⟩ <;> rcases key q2 p2 h2 with g2 | ⟨e2, f2⟩
    · exact h.owner _ _ _ g1 _ g2 he
    · have := h.bound _ _ g1; rw [f2] at he; simp only at he; omega
    · have := h.bound _ _ g2; rw [f1] at he; simp only at he; omega
    · exact ⟨e1.trans e2.symm, f1.trans f2.symm⟩

theorem registerAll_rel (qs : List Q) {s : St Q A} {e : Env Q A} (h : Rel s e) :
    Rel (registerAll qs s).1 (qs.foldl (fun e q => e.push q (.dis false)) e) := by
  induction qs generalizing s e with
  | nil => exact h
  | cons q qs ih => exact ih (h.add q .dq)

theorem registerAll_frame (qs : List Q) (s : St Q A) :
    (registerAll qs s).1.strict = s.strict ∧ s.next ≤ (registerAll qs s).1.next ∧
      (∀ i < s.next, (registerAll qs s).1.enabled i = s.enabled i) ∧ (∀ h ∈ (registerAll qs s).2, s.next ≤ h.2) ∧
      ∀ q, ((registerAll qs s).1.ovs q).filter (fun p => (q, p.1) ∉ (registerAll qs s).2) =
        (s.ovs q).filter (fun p => (q, p.1) ∉ (registerAll qs s).2) := by
  induction qs generalizing s with
  | nil => exact ⟨rfl, Nat.le_refl _, fun _ _ => rfl, by simp [registerAll], fun _ => rfl⟩
  | cons q qs ih =>
    obtain ⟨h1, h2, h3, h4, h5⟩ := ih (s.add q .dq)
    refine ⟨h1, Nat.le_trans (Nat.le_succ _) h2, ?_, ?_, ?_⟩
    · intro i hi
      show (registerAll qs (s.add q .dq)).1.enabled i = _
      rw [h3 i (Nat.lt_succ_of_lt hi)]
      exact Function.update_of_ne (Nat.ne_of_lt hi) _ _
    · intro h hh
      rcases List.mem_cons.1 hh with rfl | hh
      · exact Nat.le_refl _
      · exact Nat.le_trans (Nat.le_succ _) (h4 h hh)
    · intro q'
      show ((registerAll qs (s.add q .dq)).1.ovs q').filter
        (fun p => decide ((q', p.1) ∉ (q, s.next) :: (registerAll qs (s.add q .dq)).2)) =
        (s.ovs q').filter (fun p => decide ((q', p.1) ∉ (q, s.next) :: (registerAll qs (s.add q .dq)).2))
      have e1 : ∀ l : List (ℕ × Kind A), l.filter (fun p => decide ((q', p.1) ∉ (q, s.next) :: (registerAll qs (s.add q .dq)).2)) =
          (l.filter fun p => decide ((q', p.1) ∉ (registerAll qs (s.add q .dq)).2)).filter fun p => decide ((q', p.1) ≠ (q, s.next)) := by
        intro l
        rw [List.filter_filter]
        congr 1
        funext p
        simp only [List.mem_cons, not_or, Bool.decide_and]
      rw [e1, h5 q', ← e1]
      by_cases hq : q' = q
      · subst hq
        simp only [St.add, Function.update_self, List.filter_append]
        simp
      · simp only [St.add, Function.update_of_ne hq]

theorem removeAll_spec (l : List (Q × ℕ)) (s : St Q A) :
    (l.foldl St.remove s).strict = s.strict ∧ (l.foldl St.remove s).next = s.next ∧ (l.foldl St.remove s).enabled = s.enabled ∧
      ∀ q, (l.foldl St.remove s).ovs q = (s.ovs q).filter fun p => (q, p.1) ∉ l := by
  induction l generalizing s with
  | nil => refine ⟨rfl, rfl, rfl, fun q => ?_⟩; simp
  | cons h l ih =>
    obtain ⟨h1, h2, h3, h4⟩ := ih (s.remove h)
    refine ⟨h1, h2, h3, fun q => ?_⟩
    show (l.foldl St.remove (s.remove h)).ovs q = _
    rw [h4 q]
    by_cases hq : q = h.1
    · subst hq
      simp only [St.remove, Function.update_self]
      rw [List.filter_filter]
      congr 1
      funext p
      simp only [List.mem_cons, not_or, Bool.decide_and, Prod.ext_iff, true_and, ne_eq]
      rw [Bool.and_comm]
    · simp only [St.remove, Function.update_of_ne hq]
      congr 1
      funext p
      simp [Prod.ext_iff, hq]

theorem setAll_frame (ids : List ℕ) (s : St Q A) :
    (setAll ids s).1.ovs = s.ovs ∧ (setAll ids s).1.strict = s.strict ∧ (setAll ids s).1.next = s.next ∧
      (∀ i, (setAll ids s).1.enabled i = if i ∈ ids then true else s.enabled i) ∧
      ∀ t : St Q A, (resetAll (setAll ids s).2 t).ovs = t.ovs ∧ (resetAll (setAll ids s).2 t).strict = t.strict ∧
        (resetAll (setAll ids s).2 t).next = t.next ∧
        ∀ i, (resetAll (setAll ids s).2 t).enabled i = if i ∈ ids then s.enabled i else t.enabled i := by
  induction ids generalizing s with
  | nil =>
    refine ⟨rfl, rfl, rfl, ?_, fun t => ⟨rfl, rfl, rfl, ?_⟩⟩ <;> intro i <;> simp [setAll, resetAll]
  | cons id ids ih =>
    obtain ⟨h1, h2, h3, h4, h5⟩ := ih { s with enabled := Function.update s.enabled id true }
    refine ⟨h1, h2, h3, ?_, fun t => ?_⟩
    · intro i
      show (setAll ids _).1.enabled i = _
      rw [h4 i]
      by_cases hi : i = id
      · subst hi; simp
      · simp [hi]
    · obtain ⟨g1, g2, g3, g4⟩ := h5 t
      have e : resetAll (setAll (id :: ids) s).2 t =
          { resetAll (setAll ids { s with enabled := Function.update s.enabled id true }).2 t with
            enabled := Function.update (resetAll (setAll ids { s with enabled := Function.update s.enabled id true }).2 t).enabled
              id (s.enabled id) } := by
        simp only [setAll, resetAll, List.foldl_append, List.foldl_cons, List.foldl_nil]
      rw [e]
      refine ⟨g1, g2, g3, fun i => ?_⟩
      dsimp only
      by_cases hi : i = id
      · subst hi; simp
      · rw [Function.update_of_ne hi, g4 i]
        simp [hi]

theorem mem_dqIds {s : St Q A} {e : Env Q A} (h : Rel s e) (qs : List Q) {q : Q} {p : ℕ × Kind A} (hp : p ∈ s.ovs q) :
    p.1 ∈ dqIds s qs ↔ q ∈ qs ∧ ∀ f, p.2 ≠ .user f := by
  unfold dqIds
  rw [List.mem_flatMap]
  constructor
  · rintro ⟨q', hq', hm⟩
    obtain ⟨p', hp', he⟩ := List.mem_filterMap.1 hm
    cases hk : p'.2 with
    | dq =>
      rw [hk] at he
      obtain ⟨rfl, rfl⟩ := h.owner _ _ _ hp' _ hp (by simpa using he)
      exact ⟨hq', fun f hf => by simp [hk] at hf⟩
    | user f => simp [hk] at he
  · rintro ⟨hq, hk⟩
    refine ⟨q, hq, List.mem_filterMap.2 ⟨p, hp, ?_⟩⟩
    cases hk' : p.2 with
    | dq => rfl
    | user f => exact absurd hk' (hk f)

theorem setAll_rel {s : St Q A} {e : Env Q A} (h : Rel s e) (qs : List Q) :
    Rel (setAll (dqIds s qs) s).1 { e with layers := fun q => if q ∈ qs then (e.layers q).map Layer.enable else e.layers q } := by
  obtain ⟨h1, h2, h3, h4, -⟩ := setAll_frame (dqIds s qs) s
  refine ⟨fun q => ?_, h2.trans h.strict, ?_, ?_, ?_⟩
  · show _ = if q ∈ qs then (e.layers q).map Layer.enable else e.layers q
    rw [h1, ← h.layers q]
    by_cases hq : q ∈ qs
    · rw [if_pos hq, List.map_map]
      refine List.map_congr_left fun p hp => ?_
      simp only [Function.comp, toLayer]
      cases hk : p.2 with
      | dq =>
        have : p.1 ∈ dqIds s qs := (mem_dqIds h qs hp).2 ⟨hq, fun f hf => by simp [hk] at hf⟩
        simp only [h4, this, if_true, Layer.enable]
      | user f => simp only [Layer.enable]
    · rw [if_neg hq]
      refine List.map_congr_left fun p hp => ?_
      have : p.1 ∉ dqIds s qs := fun hm => hq ((mem_dqIds h qs hp).1 hm).1
      simp only [toLayer, h4, this, if_false]
  · intro q p hp; rw [h1] at hp; rw [h3]; exact h.bound q p hp
  · intro q; rw [h1]; exact h.sorted q
  · intro q q' p hp p' hp'; rw [h1] at hp hp'; exact h.owner q q' p hp p' hp'

theorem wrapped_layers (l : List (Layer A)) (f : A → A) :
    wrapped f (l.map fun
      | .dis b => dqOverride b
      | .user g => g.toOverride) = l.foldl (fun inner l => l.call inner) f := by
  induction l generalizing f with
  | nil => rfl
  | cons x l ih =>
    simp only [List.map_cons, wrapped, List.foldl_cons]
    rw [ih]
    congr 1
    funext a
    cases x with
    | dis b => cases b <;> rfl
    | user g =>
      simp only [UserOverride.toOverride, Layer.call]
      cases g a with
      | inl r => rfl
      | inr r => rfl

theorem call_eq {s : St Q A} {e : Env Q A} (h : Rel s e) (quantize : Q → A → A) (q : Q) (a : A) :
    s.call quantize q a = e.call quantize q a := by
  unfold St.call Env.call
  rw [← wrapped_layers, ← h.layers q, List.map_map]
  generalize hm : (s.ovs q).map (fun p => (p.1, match p.2 with
    | .dq => dqOverride (s.enabled p.1)
    | .user f => f.toOverride)) = m
  have hsnd : (s.ovs q).map ((fun
      | Layer.dis b => dqOverride b
      | Layer.user g => g.toOverride) ∘ toLayer s.enabled) = m.map (·.2) := by
    rw [← hm, List.map_map]
    refine List.map_congr_left fun p _ => ?_
    simp only [Function.comp, toLayer]
    cases p.2 <;> rfl
  have hfst : (m.map (·.1)).Pairwise (· < ·) := by
    rw [← hm, List.map_map]
    exact h.sorted q
  have honce : ∀ o ∈ m.map (·.2), ∀ a, (o a).AtMostOnce := by
    rw [← hsnd]
    intro o ho a
    obtain ⟨p, -, rfl⟩ := List.mem_map.1 ho
    simp only [Function.comp, toLayer]
    cases p.2 with
    | dq =>
      simp only [dqOverride]
      split_ifs
      · intro r; exact ⟨_, rfl⟩
      · trivial
    | user f =>
      simp only [UserOverride.toOverride]
      cases f a with
      | inl r => trivial
      | inr r => intro r; exact ⟨_, rfl⟩
  rw [hsnd]
  unfold Overrides.St.forward
  by_cases hl : m.isEmpty
  · rw [if_pos hl]
    have : m = [] := by simpa using hl
    rw [this]; rfl
  · rw [if_neg hl]
    simp only
    rw [sortedItems_eq hfst, callWrapped_once, List.reverse_reverse]
    · intro o ho; exact honce o (List.mem_reverse.1 ho)
    · exact Nat.le_refl _

theorem fresh_rel (n : ℕ) (b : Bool) : Rel (fresh n b : St Q A) ⟨fun _ => [], b⟩ :=
  ⟨fun _ => rfl, rfl, by simp [fresh], by simp [fresh], by simp [fresh]⟩

theorem scoped_general (quantize : Q → A → A) (p : Prog (Block Q A) (Look Q A)) (s : St Q A) (e : Env Q A) (h : Rel s e) :
    (exec (managers quantize) p s).2 = lexical Env.enter (Env.observe quantize) p e ∧ Same s (exec (managers quantize) p s).1 := by
  refine exec_scoped (managers quantize) Env.enter (Env.observe quantize) Rel Same ?_ ?_ ?_ ?_ ?_ ?_ ?_ p s e h
  · exact fun s => ⟨rfl, rfl, Nat.le_refl _, fun _ _ => rfl⟩
  · intro a b c h1 h2
    exact ⟨h2.ovs.trans h1.ovs, h2.strict.trans h1.strict, Nat.le_trans h1.next h2.next,
      fun i hi => (h2.enabled i (Nat.lt_of_lt_of_le hi h1.next)).trans (h1.enabled i hi)⟩
  · exact fun s s' e h1 h2 => h2.of_same h1
  · intro s e a h
    cases a with
    | call q a => simp only [managers, Env.observe, call_eq h]
    | strict => simp only [managers, Env.observe, h.strict]
  · exact fun s _ _ _ => ⟨rfl, rfl, Nat.le_refl _, fun _ _ => rfl⟩
  · intro s e b _ hn
    cases b <;> simp [managers] at hn
  · intro s e b s1 k h hb
    cases b with
    | disable qs =>
      simp only [managers, Option.some.injEq, Prod.mk.injEq] at hb
      obtain ⟨rfl, rfl⟩ := hb
      have hr := registerAll_rel qs h
      obtain ⟨f1, f2, f3, f4, f5⟩ := registerAll_frame qs s
      refine ⟨_, rfl, ⟨hr.layers, rfl, hr.bound, hr.sorted, hr.owner⟩, fun s2 hs => ?_⟩
      obtain ⟨g1, g2, g3, g4⟩ := removeAll_spec (registerAll qs s).2 { s2 with strict := (registerAll qs s).1.strict }
      refine ⟨?_, g1.trans f1, ?_, ?_⟩
      · funext q
        refine (g4 q).trans ?_
        show (s2.ovs q).filter _ = _
        rw [hs.ovs]
        show ((registerAll qs s).1.ovs q).filter _ = _
        rw [f5 q, List.filter_eq_self]
        intro p hp
        have := h.bound q p hp
        simp only [decide_eq_true_eq]
        intro hm
        have := f4 _ hm
        simp only at this
        omega
      · exact Nat.le_trans (Nat.le_trans f2 hs.next) (Nat.le_of_eq g2.symm)
      · intro i hi
        refine (congrFun g3 i).trans ?_
        exact (hs.enabled i (Nat.lt_of_lt_of_le hi f2)).trans (f3 i hi)
    | enable qs =>
      simp only [managers, Option.some.injEq, Prod.mk.injEq] at hb
      obtain ⟨rfl, rfl⟩ := hb
      obtain ⟨h1, h2, h3, h4, h5⟩ := setAll_frame (dqIds s qs) s
      refine ⟨_, rfl, setAll_rel h qs, fun s2 hs => ?_⟩
      obtain ⟨g1, g2, g3, g4⟩ := h5 s2
      refine ⟨?_, ?_, ?_, ?_⟩
      · exact g1.trans (hs.ovs.trans h1)
      · exact g2.trans (hs.strict.trans h2)
      · show s.next ≤ (resetAll _ s2).next
        rw [g3]; exact h3 ▸ hs.next
      · intro i hi
        show (resetAll _ s2).enabled i = _
        rw [g4 i, hs.enabled i (h3 ▸ hi), h4 i]
        split_ifs <;> rfl
    | override q f =>
      simp only [managers, Option.some.injEq, Prod.mk.injEq] at hb
      obtain ⟨rfl, rfl⟩ := hb
      refine ⟨_, rfl, h.add q (.user f), fun s2 hs => ?_⟩
      refine ⟨?_, hs.strict, Nat.le_trans (Nat.le_succ _) hs.next, ?_⟩
      · funext q'
        by_cases hq : q' = q
        · subst hq
          simp only [managers, St.remove, Function.update_self, hs.ovs, St.add, List.filter_append]
          have : (s.ovs q').filter (fun p => decide (p.1 ≠ s.next)) = s.ovs q' := by
            rw [List.filter_eq_self]
            intro p hp
            simpa using Nat.ne_of_lt (h.bound _ _ hp)
          rw [this]; simp
        · simp only [managers, St.remove, hs.ovs, St.add, Function.update_of_ne hq]
      · intro i hi
        exact (hs.enabled i (Nat.lt_succ_of_lt hi)).trans (Function.update_of_ne (Nat.ne_of_lt hi) _ _)
    | strict v =>
      simp only [managers, Option.some.injEq, Prod.mk.injEq] at hb
      obtain ⟨rfl, rfl⟩ := hb
      exact ⟨_, rfl, ⟨h.layers, rfl, h.bound, h.sorted, h.owner⟩, fun s2 hs => ⟨hs.ovs, rfl, hs.next, hs.enabled⟩⟩

/-! ### Properties -/

/-- **C33.** For every program that nests `disable_quantization`, `enable_quantization`, user overrides and `strict_quantization` blocks in
any way and may raise anywhere, every quantizer call and every reading of the strict flag gives what the enclosing blocks say
(`Env.enter`), and nothing that happened in finished blocks matters. -/
theorem quantization_switches_are_scoped (quantize : Q → A → A) (n : ℕ) (b : Bool) (p : Prog (Block Q A) (Look Q A)) :
    (exec (managers quantize) p (fresh n b)).2 = lexical Env.enter (Env.observe quantize) p ⟨fun _ => [], b⟩ :=
  (scoped_general quantize p _ _ (fresh_rel n b)).1

/-- **C33.** After the program, whether or not it raised, no override is left and the strict flag is what it was. -/
theorem switches_leave_nothing (quantize : Q → A → A) (n : ℕ) (b : Bool) (p : Prog (Block Q A) (Look Q A)) :
    (∀ q, (exec (managers quantize) p (fresh n b)).1.ovs q = []) ∧ (exec (managers quantize) p (fresh n b)).1.strict = b := by
  have h := (scoped_general quantize p _ _ (fresh_rel n b)).2
  exact ⟨fun q => by rw [h.ovs]; rfl, h.strict⟩

theorem foldl_push_layers (qs : List Q) (e : Env Q A) (q : Q) :
    ∃ k, (qs.foldl (fun e q => e.push q (.dis false)) e).layers q = e.layers q ++ List.replicate k (.dis false) ∧ (q ∈ qs → 0 < k) := by
  induction qs generalizing e with
  | nil => exact ⟨0, by simp, by simp⟩
  | cons x qs ih =>
    obtain ⟨k, hk, hm⟩ := ih (e.push x (.dis false))
    by_cases hq : q = x
    · subst hq
      refine ⟨k + 1, ?_, fun _ => Nat.succ_pos _⟩
      rw [List.foldl_cons, hk]
      simp only [Env.push, Function.update_self, List.append_assoc]
      rw [List.replicate_succ]; rfl
    · refine ⟨k, ?_, fun h => hm (by simpa [hq] using h)⟩
      rw [List.foldl_cons, hk]
      simp only [Env.push, Function.update_of_ne hq]

/-- **C33.** Directly inside `disable_quantization(model)` every quantizer of the model returns its input, whatever overrides it already
had and whatever blocks are around; and strict quantization is off. -/
theorem disabled_returns_input (quantize : Q → A → A) (model : List Q) (e : Env Q A) :
    ∃ e1, Env.enter (.disable model) e = some e1 ∧ e1.strict = false ∧ ∀ q ∈ model, ∀ a, e1.call quantize q a = a := by
  refine ⟨_, rfl, rfl, fun q hq a => ?_⟩
  obtain ⟨k, hk, hm⟩ := foldl_push_layers model e q
  have hk0 := hm hq
  show ((List.foldl (fun e q => Env.push e q (.dis false)) e model).layers q).foldl (fun inner l => l.call inner) (quantize q) a = a
  rw [hk, List.foldl_append]
  obtain ⟨k, rfl⟩ := Nat.exists_eq_succ_of_ne_zero (Nat.ne_of_gt hk0)
  rw [List.replicate_succ', List.foldl_append]
  rfl

/-- **C33.** Directly inside `enable_quantization(model)` every quantizer of the model that has no user overrides quantizes, however many
`disable_quantization` blocks are around; other quantizers and the strict flag are not affected. -/
theorem enabled_quantizes (quantize : Q → A → A) (model : List Q) (e : Env Q A) :
    ∃ e1, Env.enter (.enable model) e = some e1 ∧ e1.strict = e.strict ∧
      (∀ q ∈ model, (∀ f, Layer.user f ∉ e.layers q) → ∀ a, e1.call quantize q a = quantize q a) ∧
      ∀ q ∉ model, ∀ a, e1.call quantize q a = e.call quantize q a := by
  refine ⟨_, rfl, rfl, fun q hq hf a => ?_, fun q hq a => ?_⟩
  · simp only [Env.call, hq, if_true]
    have : ∀ (l : List (Layer A)) (g : A → A), (∀ f, Layer.user f ∉ l) →
        (l.map Layer.enable).foldl (fun inner l => l.call inner) g = g := by
      intro l
      induction l with
      | nil => intros; rfl
      | cons x l ih =>
        intro g hl
        cases x with
        | dis b =>
          simp only [List.map_cons, List.foldl_cons, Layer.enable]
          rw [ih _ fun f hm => hl f (List.mem_cons_of_mem _ hm)]
          rfl
        | user f => exact absurd (List.mem_cons_self ..) (hl f)
    rw [this _ _ hf]
  · simp only [Env.call, hq, if_false]

/-! ### Concrete cases -/

/-- Quantizers 0 and 1, both "multiply by 10". Disable both; inside, enable 0, and inside that disable 1 and raise. -/
def sample : Prog (Block ℕ ℤ) (Look ℕ ℤ) :=
  .act (.call 0 3) <|
  .block (.disable [0, 1])
    (.act (.call 0 3) <| .act .strict <|
      .block (.enable [0]) (.act (.call 0 3) <| .act (.call 1 3) <| .act .strict .done) <|
      .act (.call 0 3) <|
      .block (.override 0 fun a => .inr (a, fun r => r + 1)) (.act (.call 0 3) .raise) .done)
    .done

example : (exec (managers fun _ a => 10 * a) sample (fresh 4 true)).2 =
    (true, [.inl 30, .inl 3, .inr false, .inl 30, .inl 3, .inr false, .inl 3, .inl 4]) := by decide
example : (exec (managers fun _ a => 10 * a) sample (fresh 4 true)).1.strict = true := by decide
example : (⟨fun q => if q = 0 then [.dis false, .dis false] else [], true⟩ : Env ℕ ℤ).call (fun _ a => 10 * a) 0 3 = 3 := by decide

end FF.Disable
