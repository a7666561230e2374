/-
The context manager of range estimation: range_setting/common.py `estimate_ranges`, with the `prepare`,
`cleanup` and `split_module` methods of the estimators in minmax.py and min_error.py, and the override
handles of forward_override.py and nn/quantizer.py.

Simplifications:
* a module is given by the quantizers `named_quantizers` yields for it;
* the code run inside and around the contexts is a program that registers and removes overrides, raises,
  catches exceptions and opens further range estimation contexts; calls of the model change the ranges of
  the quantizers but no overrides and are left out.
-/

namespace FF.Estimate

/-! ## Model -/

/-- An override function: one of a range estimator, or another one. -/
inductive Ov (U : Type) where
  | estimator
  | user (u : U)

variable {Q U : Type} [DecidableEq Q]

/-- The overrides of all quantizers, `Quantizer._quantizer_overrides`, and
`OverrideHandle.global_handles`. -/
structure World (Q U : Type) where
  overrides : Q → List (Nat × Ov U)
  next : Nat

/-- `Quantizer.register_override`: nn/quantizer.py:373-392, forward_override.py:54-57. -/
def register (w : World Q U) (q : Q) (o : Ov U) : World Q U × (Q × Nat) :=
  (⟨fun x => if x = q then w.overrides x ++ [(w.next, o)] else w.overrides x, w.next + 1⟩, (q, w.next))

/-- `OverrideHandle.remove`, `Quantizer.remove_override`: forward_override.py:59-67,
nn/quantizer.py:394-406. -/
def remove (w : World Q U) (h : Q × Nat) : World Q U :=
  { w with overrides := fun x =>
      if x = h.1 then (w.overrides x).filter (fun e => e.1 != h.2) else w.overrides x }

/-- `split_module`: minmax.py:294-303, min_error.py:299-313. -/
def splitModule (supported : Q → Bool) (skip : Bool) (quantizers : List Q) : List Q :=
  quantizers.filter (fun q => supported q || !skip)

/-- The preparation loop of `estimate_ranges`: common.py:280-284 and `prepare`: minmax.py:272-287.  The
flag tells whether `prepare` raised. -/
def prepare (supported : Q → Bool) : List Q → World Q U → List (Q × Nat) →
    World Q U × List (Q × Nat) × Bool
  | [], w, hs => (w, hs, false)
  | q :: qs, w, hs =>
    if supported q then
      prepare supported qs (register w q .estimator).1 (hs ++ [(register w q .estimator).2])
    else (w, hs, true)

/-- The `finally` block: common.py:287-289 and `cleanup`: minmax.py:289-292. -/
def cleanup (w : World Q U) (hs : List (Q × Nat)) : World Q U := hs.foldl remove w

/-- A program that uses overrides and range estimation contexts. -/
inductive Prog (Q U : Type) where
  | done
  | raise
  | register (q : Q) (u : U) (rest : Prog Q U)
  | remove (q : Q) (id : Nat) (rest : Prog Q U)
  | attempt (body rest : Prog Q U)
  | estimate (layers : List (List Q)) (skip : Bool) (body rest : Prog Q U)

/-- What a program does; the flag tells whether it ends with an exception.  For `estimate`:
common.py:245-289. -/
def exec (supported : Q → Bool) : Prog Q U → World Q U → World Q U × Bool
  | .done, w => (w, false)
  | .raise, w => (w, true)
  | .register q u rest, w => exec supported rest (FF.Estimate.register w q (.user u)).1
  | .remove q id rest, w => exec supported rest (FF.Estimate.remove w (q, id))
  | .attempt body rest, w => exec supported rest (exec supported body w).1
  | .estimate layers skip body rest, w =>
    match prepare supported (layers.flatMap (splitModule supported skip)) w [] with
    | (w1, _, true) => (w1, true)
    | (w1, hs, false) =>
      match exec supported body w1 with
      | (w2, true) => (cleanup w2 hs, true)
      | (w2, false) => exec supported rest (cleanup w2 hs)

/-! ## Specification -/

/-- Every range estimation context of the program is given supported quantizers, or skips the others. -/
def Prog.Supported (supported : Q → Bool) : Prog Q U → Prop
  | .done => True
  | .raise => True
  | .register _ _ rest => rest.Supported supported
  | .remove _ _ rest => rest.Supported supported
  | .attempt body rest => body.Supported supported ∧ rest.Supported supported
  | .estimate layers skip body rest =>
    (skip = true ∨ ∀ layer ∈ layers, ∀ q ∈ layer, supported q = true) ∧
      body.Supported supported ∧ rest.Supported supported

/-- Apart from range estimation the program leaves overrides alone. -/
def Prog.Quiet : Prog Q U → Prop
  | .done => True
  | .raise => True
  | .register _ _ _ => False
  | .remove _ _ _ => False
  | .attempt body rest => body.Quiet ∧ rest.Quiet
  | .estimate _ _ body rest => body.Quiet ∧ rest.Quiet

/-- Handle ids are handed out once. -/
def World.Ok (w : World Q U) : Prop := ∀ q, ∀ e ∈ w.overrides q, e.1 < w.next

/-! ## Lemmas -/

theorem remove_overrides (w : World Q U) (h : Q × Nat) (q : Q) :
    (remove w h).overrides q = (w.overrides q).filter (fun e => decide ((q, e.1) ≠ h)) := by
  unfold remove
  dsimp only
  split
  · rename_i hq
    subst hq
    apply List.filter_congr
    intro e _
    by_cases he : e.1 = h.2
    · simp [he]
    · have : (h.1, e.1) ≠ h := fun hc => he (by rw [← hc])
      simp [he, this]
  · rename_i hq
    symm
    rw [List.filter_eq_self]
    intro e _
    have : (q, e.1) ≠ h := fun hc => hq (by rw [← hc])
    simp [this]

theorem cleanup_overrides : ∀ (hs : List (Q × Nat)) (w : World Q U) (q : Q),
    (cleanup w hs).overrides q = (w.overrides q).filter (fun e => decide ((q, e.1) ∉ hs))
  | [], w, q => by
    rw [List.filter_eq_self.2 (by simp)]
    rfl
  | h :: hs, w, q => by
    have : cleanup w (h :: hs) = cleanup (remove w h) hs := rfl
    rw [this, cleanup_overrides hs, remove_overrides, List.filter_filter]
    apply List.filter_congr
    intro e _
    by_cases h1 : (q, e.1) = h <;> by_cases h2 : (q, e.1) ∈ hs <;> simp [h1, h2]

theorem cleanup_next : ∀ (hs : List (Q × Nat)) (w : World Q U), (cleanup w hs).next = w.next
  | [], _ => rfl
  | h :: hs, w => by
    have : cleanup w (h :: hs) = cleanup (remove w h) hs := rfl
    rw [this, cleanup_next hs]
    rfl

theorem register_overrides (w : World Q U) (q : Q) (o : Ov U) (x : Q) :
    (register w q o).1.overrides x = w.overrides x ++ (if x = q then [(w.next, o)] else []) := by
  unfold register
  dsimp only
  split <;> simp

/-- Preparation appends estimators, whose handles it returns. -/
theorem prepare_spec (supported : Q → Bool) : ∀ (qs : List Q) (w : World Q U) (hs : List (Q × Nat)),
    (∀ q ∈ qs, supported q = true) →
    ∃ w1 new, prepare supported qs w hs = (w1, hs ++ new, false) ∧ w.next ≤ w1.next ∧
      (∀ h ∈ new, w.next ≤ h.2 ∧ h.2 < w1.next) ∧
      ∀ x, ∃ ext, w1.overrides x = w.overrides x ++ ext ∧
        ∀ e ∈ ext, e.2 = .estimator ∧ (x, e.1) ∈ new
  | [], w, hs, _ => ⟨w, [], by simp [prepare], Nat.le_refl _, by simp, fun x => ⟨[], by simp⟩⟩
  | q :: qs, w, hs, h => by
    obtain ⟨w1, new, e, hle, hid, hov⟩ := prepare_spec supported qs (register w q .estimator).1
      (hs ++ [(q, w.next)]) (fun x hx => h x (List.mem_cons_of_mem _ hx))
    have hnext : (register w q (Ov.estimator (U := U))).1.next = w.next + 1 := rfl
    rw [hnext] at hle hid
    refine ⟨w1, (q, w.next) :: new, ?_, by omega, ?_, ?_⟩
    · rw [prepare, if_pos (h q List.mem_cons_self)]
      have : (register w q (Ov.estimator (U := U))).2 = (q, w.next) := rfl
      rw [this, e]
      simp only [List.append_assoc, List.singleton_append]
    · intro x hx
      rcases List.mem_cons.1 hx with rfl | hx
      · dsimp only
        omega
      · have := hid x hx
        omega
    · intro x
      obtain ⟨ext, e1, e2⟩ := hov x
      rw [register_overrides] at e1
      refine ⟨(if x = q then [(w.next, .estimator)] else []) ++ ext, by rw [e1, List.append_assoc], ?_⟩
      intro y hy
      rcases List.mem_append.1 hy with hy | hy
      · split at hy
        · rename_i hxq
          rw [List.mem_singleton] at hy
          subst hy
          subst hxq
          exact ⟨rfl, List.mem_cons_self⟩
        · simp at hy
      · exact ⟨(e2 y hy).1, List.mem_cons_of_mem _ (e2 y hy).2⟩

omit [DecidableEq Q] in
theorem parts_supported {supported : Q → Bool} {layers : List (List Q)} {skip : Bool}
    (h : skip = true ∨ ∀ layer ∈ layers, ∀ q ∈ layer, supported q = true) :
    ∀ q ∈ layers.flatMap (splitModule supported skip), supported q = true := by
  intro q hq
  simp only [List.mem_flatMap, splitModule, List.mem_filter, Bool.or_eq_true, Bool.not_eq_true'] at hq
  obtain ⟨layer, hl, hq, hs⟩ := hq
  rcases h with h | h
  · rcases hs with hs | hs
    · exact hs
    · rw [h] at hs
      cases hs
  · exact h layer hl q hq

theorem register_ok {w : World Q U} (h : w.Ok) (q : Q) (o : Ov U) : (register w q o).1.Ok := by
  intro x e he
  rw [register_overrides] at he
  have hn : (register w q o).1.next = w.next + 1 := rfl
  rw [hn]
  rcases List.mem_append.1 he with he | he
  · have := h x e he
    omega
  · split at he
    · rw [List.mem_singleton] at he
      subst he
      dsimp only
      omega
    · simp at he

theorem remove_ok {w : World Q U} (h : w.Ok) (k : Q × Nat) : (remove w k).Ok := by
  intro x e he
  rw [remove_overrides] at he
  exact h x e (List.mem_filter.1 he).1

theorem cleanup_ok {w : World Q U} (h : w.Ok) (hs : List (Q × Nat)) : (cleanup w hs).Ok := by
  intro x e he
  rw [cleanup_overrides] at he
  rw [cleanup_next]
  exact h x e (List.mem_filter.1 he).1

omit [DecidableEq Q] in
theorem prepared_ok {w w1 : World Q U} {new : List (Q × Nat)} (h : w.Ok) (hle : w.next ≤ w1.next)
    (hid : ∀ h ∈ new, w.next ≤ h.2 ∧ h.2 < w1.next)
    (hov : ∀ x, ∃ ext, w1.overrides x = w.overrides x ++ ext ∧
        ∀ e ∈ ext, e.2 = Ov.estimator ∧ (x, e.1) ∈ new) : w1.Ok := by
  intro x e he
  obtain ⟨ext, e1, e2⟩ := hov x
  rw [e1] at he
  rcases List.mem_append.1 he with he | he
  · have := h x e he
    omega
  · exact (hid _ (e2 e he).2).2

/-- One range estimation context around a body that adds no estimators. -/
theorem block_estimators {w w1 w2 : World Q U} {new : List (Q × Nat)}
    (hov : ∀ x, ∃ ext, w1.overrides x = w.overrides x ++ ext ∧
        ∀ e ∈ ext, e.2 = Ov.estimator ∧ (x, e.1) ∈ new)
    (h2 : ∀ q, ∀ e ∈ w2.overrides q, e.2 = .estimator → e ∈ w1.overrides q) :
    ∀ q, ∀ e ∈ (cleanup w2 new).overrides q, e.2 = .estimator → e ∈ w.overrides q := by
  intro q e he hest
  rw [cleanup_overrides, List.mem_filter] at he
  have h1 := h2 q e he.1 hest
  obtain ⟨ext, e1, e2⟩ := hov q
  rw [e1] at h1
  rcases List.mem_append.1 h1 with h1 | h1
  · exact h1
  · have := (e2 e h1).2
    simp [this] at he

theorem exec_estimators (supported : Q → Bool) : ∀ (p : Prog Q U) (w : World Q U),
    w.Ok → p.Supported supported → (exec supported p w).1.Ok ∧
      ∀ q, ∀ e ∈ (exec supported p w).1.overrides q, e.2 = .estimator → e ∈ w.overrides q
  | .done, w, hw, _ => ⟨hw, fun _ _ he _ => he⟩
  | .raise, w, hw, _ => ⟨hw, fun _ _ he _ => he⟩
  | .register q u rest, w, hw, hs => by
    obtain ⟨h1, h2⟩ := exec_estimators supported rest _ (register_ok hw q (.user u)) hs
    refine ⟨h1, ?_⟩
    intro x e he hest
    have := h2 x e he hest
    rw [register_overrides] at this
    rcases List.mem_append.1 this with h | h
    · exact h
    · split at h
      · rw [List.mem_singleton] at h
        subst h
        cases hest
      · simp at h
  | .remove q id rest, w, hw, hs => by
    obtain ⟨h1, h2⟩ := exec_estimators supported rest _ (remove_ok hw (q, id)) hs
    refine ⟨h1, ?_⟩
    intro x e he hest
    have := h2 x e he hest
    rw [remove_overrides] at this
    exact (List.mem_filter.1 this).1
  | .attempt body rest, w, hw, hs => by
    obtain ⟨g1, g2⟩ := exec_estimators supported body w hw hs.1
    obtain ⟨h1, h2⟩ := exec_estimators supported rest _ g1 hs.2
    exact ⟨h1, fun x e he hest => g2 x e (h2 x e he hest) hest⟩
  | .estimate layers skip body rest, w, hw, hs => by
    obtain ⟨w1, new, e, hle, hid, hov⟩ := prepare_spec supported
      (layers.flatMap (splitModule supported skip)) w [] (parts_supported hs.1)
    have hw1 := prepared_ok hw hle hid hov
    obtain ⟨g1, g2⟩ := exec_estimators supported body w1 hw1 hs.2.1
    have hb := block_estimators hov g2
    have hc := cleanup_ok g1 new
    unfold exec
    rw [e]
    dsimp only
    rw [List.nil_append]
    cases hx : exec supported body w1 with
    | mk w2 raised =>
      rw [hx] at hb hc
      cases raised with
      | true => exact ⟨hc, hb⟩
      | false =>
        obtain ⟨h1, h2⟩ := exec_estimators supported rest _ hc hs.2.2
        exact ⟨h1, fun x e he hest => hb x e (h2 x e he hest) hest⟩

theorem block_restores {w w1 : World Q U} {new : List (Q × Nat)} (hw : w.Ok)
    (hid : ∀ h ∈ new, w.next ≤ h.2 ∧ h.2 < w1.next)
    (hov : ∀ x, ∃ ext, w1.overrides x = w.overrides x ++ ext ∧
        ∀ e ∈ ext, e.2 = Ov.estimator ∧ (x, e.1) ∈ new) {w2 : World Q U}
    (h2 : w2.overrides = w1.overrides) : (cleanup w2 new).overrides = w.overrides := by
  funext x
  rw [cleanup_overrides, h2]
  obtain ⟨ext, e1, e2⟩ := hov x
  rw [e1, List.filter_append]
  have a1 : (w.overrides x).filter (fun e => decide ((x, e.1) ∉ new)) = w.overrides x := by
    rw [List.filter_eq_self]
    intro e he
    rw [decide_eq_true_iff]
    intro hc
    have h1 := hw x e he
    have h3 := (hid _ hc).1
    dsimp only at h3
    omega
  have a2 : ext.filter (fun e => decide ((x, e.1) ∉ new)) = [] := by
    rw [List.filter_eq_nil_iff]
    intro e he
    simp [(e2 e he).2]
  rw [a1, a2, List.append_nil]

theorem estimator_present (supported : Q → Bool) : ∀ (qs : List Q) (w w1 : World Q U)
    (hs hs' : List (Q × Nat)), w.Ok → prepare supported qs w hs = (w1, hs', false) →
    ∀ q ∈ qs, ∃ e ∈ w1.overrides q, e.2 = .estimator ∧ w.next ≤ e.1
  | [], _, _, _, _, _, _ => by simp
  | q :: qs, w, w1, hs, hs', hw, h => by
    rw [prepare] at h
    split at h
    · have hn : (register w q (Ov.estimator (U := U))).1.next = w.next + 1 := rfl
      have hok := register_ok hw q (Ov.estimator (U := U))
      have hrec := estimator_present supported qs _ w1 _ hs' hok h
      intro x hx
      rcases List.mem_cons.1 hx with rfl | hx
      · by_cases hxq : x ∈ qs
        · obtain ⟨e, h1, h2, h3⟩ := hrec x hxq
          exact ⟨e, h1, h2, by omega⟩
        · have keep : ∀ (qs : List Q) (w w1 : World Q U) (hs hs' : List (Q × Nat)),
              prepare supported qs w hs = (w1, hs', false) →
              ∀ e ∈ w.overrides x, e ∈ w1.overrides x := by
            intro qs
            induction qs with
            | nil =>
              intro w w1 hs hs' h e he
              rw [prepare] at h
              cases h
              exact he
            | cons y ys ih =>
              intro w w1 hs hs' h e he
              rw [prepare] at h
              split at h
              · refine ih _ _ _ _ h e ?_
                rw [register_overrides]
                exact List.mem_append_left _ he
              · cases h
          refine ⟨(w.next, .estimator), keep _ _ _ _ _ h _ ?_, rfl, Nat.le_refl _⟩
          rw [register_overrides, if_pos rfl]
          simp
      · obtain ⟨e, h1, h2, h3⟩ := hrec x hx
        exact ⟨e, h1, h2, by omega⟩
    · cases h

/-! ## Properties -/

/-- **C46.**  Whatever the program does — raise anywhere, nest contexts, register and remove overrides —
when it ends no quantizer has an estimator override it did not have before.  Guard: no context is given a
quantizer its estimator does not support without asking to skip it (see the deviation). -/
theorem no_estimator_left_partial (supported : Q → Bool) (p : Prog Q U) (w : World Q U) (hw : w.Ok)
    (hs : p.Supported supported) :
    ∀ q, ∀ e ∈ (exec supported p w).1.overrides q, e.2 = .estimator → e ∈ w.overrides q :=
  (exec_estimators supported p w hw hs).2

/-- **C46.**  If nothing but range estimation touches the overrides, then they are afterwards exactly as
before, also when the program ends with an exception. -/
theorem estimation_restores_overrides_partial (supported : Q → Bool) : ∀ (p : Prog Q U) (w : World Q U),
    w.Ok → p.Supported supported → p.Quiet →
      (exec supported p w).1.overrides = w.overrides
  | .done, _, _, _, _ => rfl
  | .raise, _, _, _, _ => rfl
  | .register _ _ _, _, _, _, hq => hq.elim
  | .remove _ _ _, _, _, _, hq => hq.elim
  | .attempt body rest, w, hw, hs, hq => by
    have h1 := (exec_estimators supported body w hw hs.1).1
    have := estimation_restores_overrides_partial supported rest _ h1 hs.2 hq.2
    have h2 := estimation_restores_overrides_partial supported body w hw hs.1 hq.1
    exact this.trans h2
  | .estimate layers skip body rest, w, hw, hs, hq => by
    obtain ⟨w1, new, e, hle, hid, hov⟩ := prepare_spec supported
      (layers.flatMap (splitModule supported skip)) w [] (parts_supported hs.1)
    have hw1 := prepared_ok hw hle hid hov
    have hc := cleanup_ok (exec_estimators supported body w1 hw1 hs.2.1).1 new
    have h2 := estimation_restores_overrides_partial supported body w1 hw1 hs.2.1 hq.1
    have hr := block_restores hw hid hov h2
    unfold exec
    rw [e]
    dsimp only
    rw [List.nil_append]
    cases hx : exec supported body w1 with
    | mk w2 raised =>
      rw [hx] at hr hc
      cases raised with
      | true => exact hr
      | false =>
        exact (estimation_restores_overrides_partial supported rest _ hc hs.2.2 hq.2).trans hr

/-- **C46.**  Leaving a range estimation context keeps every other override: what is left at the end are the
overrides at the end of the body without those the context put in, whose handles are the `new` ones. -/
theorem other_overrides_kept (supported : Q → Bool) (layers : List (List Q)) (skip : Bool)
    (body : Prog Q U) (w : World Q U)
    (hs : skip = true ∨ ∀ layer ∈ layers, ∀ q ∈ layer, supported q = true) :
    ∃ w1 : World Q U, ∀ q, ∃ added,
      w1.overrides q = w.overrides q ++ added ∧
      (∀ e ∈ added, e.2 = .estimator ∧ w.next ≤ e.1 ∧ e.1 < w1.next) ∧
      ∀ e ∈ (exec supported body w1).1.overrides q, e.1 < w.next ∨ w1.next ≤ e.1 →
        e ∈ (exec supported (.estimate layers skip body .done) w).1.overrides q := by
  obtain ⟨w1, new, e, hle, hid, hov⟩ := prepare_spec supported
    (layers.flatMap (splitModule supported skip)) w [] (parts_supported hs)
  refine ⟨w1, fun q => ?_⟩
  obtain ⟨ext, e1, e2⟩ := hov q
  refine ⟨ext, e1, fun x hx => ⟨(e2 x hx).1, hid _ (e2 x hx).2⟩, ?_⟩
  intro x hx hnot
  have hmem : x ∈ (cleanup (exec supported body w1).1 new).overrides q := by
    rw [cleanup_overrides, List.mem_filter]
    refine ⟨hx, ?_⟩
    rw [decide_eq_true_iff]
    intro hc
    have := hid _ hc
    dsimp only at this
    omega
  unfold exec
  rw [e]
  dsimp only
  rw [List.nil_append]
  cases hb : exec supported body w1 with
  | mk w2 raised =>
    rw [hb] at hmem
    cases raised with
    | true => exact hmem
    | false => exact hmem

/-- **C46.**  Inside the context every prepared quantizer has an estimator that comes before all other
overrides: overrides with larger handles run first. -/
theorem estimator_outermost (supported : Q → Bool) (layers : List (List Q)) (skip : Bool)
    (w : World Q U) (hw : w.Ok)
    (hs : skip = true ∨ ∀ layer ∈ layers, ∀ q ∈ layer, supported q = true) :
    ∃ w1 hs', prepare supported (layers.flatMap (splitModule supported skip)) w [] = (w1, hs', false) ∧
      ∀ layer ∈ layers, ∀ q ∈ layer, supported q = true →
        ∃ e ∈ w1.overrides q, e.2 = .estimator ∧
          ∀ e' ∈ w1.overrides q, e'.2 ≠ .estimator → e'.1 < e.1 := by
  obtain ⟨w1, new, e, hle, hid, hov⟩ := prepare_spec supported
    (layers.flatMap (splitModule supported skip)) w [] (parts_supported hs)
  refine ⟨w1, _, e, ?_⟩
  intro layer hl q hq hsup
  obtain ⟨x, h1, h2, h3⟩ := estimator_present supported _ w w1 _ _ hw e q (by
    simp only [List.mem_flatMap, splitModule, List.mem_filter, hsup, Bool.true_or]
    exact ⟨layer, hl, hq, trivial⟩)
  refine ⟨x, h1, h2, ?_⟩
  intro y hy hne
  obtain ⟨ext, e1, e2⟩ := hov q
  rw [e1] at hy
  rcases List.mem_append.1 hy with hy | hy
  · have := hw q y hy
    omega
  · exact absurd (e2 y hy).1 hne

/-- **C46, deviation.**  If a quantizer is met that the estimator does not support, then the overrides on
the quantizers before it stay: the `try` block begins after the preparation. -/
theorem setup_failure_leaks (supported : Q → Bool) (good bad : Q) (hg : supported good = true)
    (hb : supported bad = false) (w : World Q U) (body rest : Prog Q U) :
    (exec supported (.estimate [[good, bad]] false body rest) w).2 = true ∧
      (w.next, .estimator) ∈
        (exec supported (.estimate [[good, bad]] false body rest) w).1.overrides good := by
  have hp : prepare supported ([[good, bad]].flatMap (splitModule supported false)) w [] =
      ((register w good .estimator).1, [(good, w.next)], true) := by
    simp [splitModule, prepare, hg, hb]
    rfl
  unfold exec
  rw [hp]
  refine ⟨rfl, ?_⟩
  dsimp only
  rw [register_overrides]
  simp

/-! ## Concrete cases -/

/-- Quantizers 0 to 3; number 3 cannot be range-estimated. -/
def sup (q : Nat) : Bool := q != 3

/-- Two nested contexts over overlapping modules; the inner one raises, the exception is caught. -/
def nested : Prog Nat Nat :=
  .estimate [[0, 1], [1, 3]] true
    (.attempt (.estimate [[1, 2]] false (.register 2 7 .raise) .done) (.register 0 8 .done)) .done

example : nested.Supported sup := by
  refine ⟨Or.inl rfl, ⟨⟨Or.inr ?_, trivial, trivial⟩, trivial⟩, trivial⟩
  decide

/-- Of the overrides only the one there before and those registered by the body are left. -/
example : let w : World Nat Nat := ⟨fun q => if q = 1 then [(0, .user 5)] else [], 1⟩
    ([0, 1, 2, 3].map (fun q => ((exec sup nested w).1.overrides q).map (fun e => e.1))) =
      [[7], [0], [6], []] ∧ (exec sup nested w).2 = false := by decide

example : World.Ok (⟨fun q => if q = 1 then [(0, .user 5)] else [], 1⟩ : World Nat Nat) := by
  intro q e he
  dsimp only at he ⊢
  split at he
  · simp at he
    subst he
    decide
  · simp at he

end FF.Estimate
