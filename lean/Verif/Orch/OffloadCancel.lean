import Verif.Orch.OffloadRaw
import Verif.Orch.TopoLemmas

/-! # Removing redundant moves -/

namespace FF.Orch

variable {V W : Type}

/-! ### Round trips of modules -/

def Instr.isModuleMove : Instr → Bool
  | .moveModule .. => true
  | _ => false

/-- The module an instruction runs. -/
def Instr.module? : Instr → Option ℕ
  | .call m true _ _ _ _ => some m
  | .optimize m _ _ _ => some m
  | _ => none

theorem isRoundTrip_left {comp stor : Dev} {a b : Instr} (h : a.isModuleMove = false) : isRoundTrip comp stor a b = false := by
  cases a <;> first | rfl | simp [Instr.isModuleMove] at h

theorem isRoundTrip_right {comp stor : Dev} {a b : Instr} (h : b.isModuleMove = false) : isRoundTrip comp stor a b = false := by
  cases a with
  | moveModule t m =>
    cases t with
    | map l => rfl
    | dev d => cases b <;> first | rfl | simp [Instr.isModuleMove] at h
  | _ => rfl

theorem cancel_cons {comp stor : Dev} {a : Instr} {l : List Instr} (h : ∀ b l', l = b :: l' → isRoundTrip comp stor a b = false) :
    cancelRoundTrips comp stor (a :: l) = a :: cancelRoundTrips comp stor l := by
  cases l with
  | nil => rfl
  | cons b l =>
    rw [cancelRoundTrips]
    simp [h b l rfl]

theorem cancel_pass {comp stor : Dev} (p : List Instr) (hp : ∀ a ∈ p, a.isModuleMove = false) (l : List Instr) :
    cancelRoundTrips comp stor (p ++ l) = p ++ cancelRoundTrips comp stor l := by
  induction p with
  | nil => rfl
  | cons a p ih =>
    rw [List.cons_append, cancel_cons fun b l' _ => isRoundTrip_left (hp a (by simp)), ih fun b hb => hp b (by simp [hb])]
    rfl

theorem wrapActivations_passive {comp stor : Dev} {i : Instr} (hi : i.Unplaced) :
    (∀ a ∈ wrapActivations comp stor i, a.isModuleMove = false) ∧ wrapActivations comp stor i ≠ [] := by
  have hacts : ∀ i : Instr, ∀ a ∈ actsBefore comp i, a.isModuleMove = false := by
    intro i a ha
    unfold actsBefore at ha
    obtain ⟨r, _, rfl⟩ := List.mem_map.1 ha
    rfl
  cases i with
  | moveModule t m => exact absurd hi id
  | moveAct d r => exact absurd hi id
  | call m im args kwargs t cs =>
    refine ⟨?_, by simp [wrapActivations]⟩
    intro a ha
    simp only [wrapActivations, List.mem_append, List.mem_cons, List.not_mem_nil, or_false] at ha
    rcases ha with ha | rfl | rfl
    · exact hacts _ a ha
    · rfl
    · rfl
  | optimize m args kwargs d =>
    refine ⟨?_, by simp [wrapActivations]⟩
    intro a ha
    simp only [wrapActivations, List.mem_append, List.mem_cons, List.not_mem_nil, or_false] at ha
    rcases ha with ha | rfl
    · exact hacts _ a ha
    · rfl
  | store t cs => simp [wrapActivations, Instr.isModuleMove]
  | load s t a => simp [wrapActivations, Instr.isModuleMove]
  | ret outs => simp [wrapActivations, Instr.isModuleMove]
  | delete ts => simp [wrapActivations, Instr.isModuleMove]

theorem block_none {comp stor : Dev} {i : Instr} (h : i.module? = none) : block comp stor i = wrapActivations comp stor i := by
  cases i with
  | call m im args kwargs t cs => cases im <;> simp_all [block, wrapWeights, Instr.module?]
  | optimize m args kwargs d => simp [Instr.module?] at h
  | _ => simp [block, wrapWeights]

theorem block_some {comp stor : Dev} {i : Instr} {m : ℕ} (h : i.module? = some m) :
    block comp stor i = .moveModule (.dev comp) m :: (wrapActivations comp stor i ++ [.moveModule (.dev stor) m]) := by
  cases i with
  | call m' im args kwargs t cs =>
    cases im with
    | false => simp [Instr.module?] at h
    | true =>
      simp only [Instr.module?, Option.some.injEq] at h
      subst h
      simp [block, wrapWeights, wrapActivations]
  | optimize m' args kwargs d =>
    simp only [Instr.module?, Option.some.injEq] at h
    subst h
    simp [block, wrapWeights, wrapActivations]
  | _ => simp [Instr.module?] at h

theorem exec_placement {comp : Dev} {sem : Sem V W} {i : Instr} (hi : i.isModuleMove = false) {u u1 : St (Placed V) (W × Placement)}
    {o : Option (Out (Placed V))} (h : exec (placed comp sem) i u = .ok (u1, o)) : u1.w.2 = u.w.2 := by
  cases i with
  | moveModule t m => simp [Instr.isModuleMove] at hi
  | store t cs =>
    simp only [exec, Except.ok.injEq, Prod.mk.injEq] at h
    obtain ⟨rfl, rfl⟩ := h
    rfl
  | delete ts =>
    simp only [exec, Except.ok.injEq, Prod.mk.injEq] at h
    obtain ⟨rfl, rfl⟩ := h
    rfl
  | load s t a =>
    simp only [exec] at h
    split at h
    · simp at h
    · split at h
      · simp at h
      · simp only [Except.ok.injEq, Prod.mk.injEq] at h
        obtain ⟨rfl, rfl⟩ := h
        rfl
  | call m im args kwargs t cs =>
    simp only [exec] at h
    split at h
    · simp at h
    · simp only [Except.ok.injEq, Prod.mk.injEq] at h
      obtain ⟨rfl, rfl⟩ := h
      rfl
  | optimize m args kwargs d =>
    simp only [exec] at h
    split at h
    · simp at h
    · rename_i bs _
      cases ho : (placed comp sem).optimize u.w d.fn m bs with
      | none => rw [ho] at h; simp at h
      | some w =>
        rw [ho] at h
        simp only [Except.ok.injEq, Prod.mk.injEq] at h
        obtain ⟨rfl, rfl⟩ := h
        simp only [placed] at ho
        split_ifs at ho
        simp only [Option.map_eq_some_iff] at ho
        obtain ⟨w0, _, rfl⟩ := ho
        rfl
  | ret outs =>
    simp only [exec] at h
    split at h
    · simp at h
    · simp only [Except.ok.injEq, Prod.mk.injEq] at h
      obtain ⟨rfl, rfl⟩ := h
      rfl
  | moveAct d r =>
    simp only [exec] at h
    split at h
    · simp at h
    · split at h
      · simp at h
      · simp only [Except.ok.injEq, Prod.mk.injEq] at h
        obtain ⟨rfl, rfl⟩ := h
        rfl

/-- Two programs that start the same and agree afterwards. -/
theorem run_congr {comp : Dev} {sem : Sem V W} (p q q' : List Instr) (hp : ∀ a ∈ p, a.isModuleMove = false) (u : St (Placed V) (W × Placement))
    (h : ∀ u1 : St (Placed V) (W × Placement), u1.w.2 = u.w.2 → run (placed comp sem) q u1 = run (placed comp sem) q' u1) :
    run (placed comp sem) (p ++ q) u = run (placed comp sem) (p ++ q') u := by
  induction p generalizing u with
  | nil => exact h u rfl
  | cons a p ih =>
    simp only [List.cons_append, run]
    cases he : exec (placed comp sem) a u with
    | error e => rfl
    | ok x =>
      obtain ⟨u1, o⟩ := x
      cases o with
      | some o => rfl
      | none =>
        have := exec_placement (hp a (by simp)) he
        exact ih (fun b hb => hp b (by simp [hb])) u1 fun u2 hu2 => h u2 (hu2.trans this)

theorem run_moveModule {comp : Dev} {sem : Sem V W} (t : MoveTo) (m : ℕ) (l : List Instr) (u : St (Placed V) (W × Placement)) :
    run (placed comp sem) (.moveModule t m :: l) u = run (placed comp sem) l ⟨(placed comp sem).moveModule u.w t m, u.reg⟩ := rfl

theorem moveParams_on {l : List (String × Dev)} {d : Dev} (h : ∀ p ∈ l, p.2 = d) : moveParams l (.dev d) = l := by
  simp only [moveParams]
  conv => rhs; rw [← List.map_id l]
  apply List.map_congr_left
  intro p hp
  rw [← h p hp]
  rfl

theorem moveParams_twice (l : List (String × Dev)) (d d' : Dev) : moveParams (moveParams l (.dev d)) (.dev d') = moveParams l (.dev d') := by
  simp only [moveParams, List.map_map]
  rfl

/-- Removing the pair does not matter for a module that is already on the compute device. -/
theorem round_trip {comp stor : Dev} {sem : Sem V W} {m : ℕ} {u : St (Placed V) (W × Placement)} (h : ∀ p ∈ u.w.2 m, p.2 = comp) (l : List Instr) :
    run (placed comp sem) (.moveModule (.dev stor) m :: .moveModule (.dev comp) m :: l) u = run (placed comp sem) l u := by
  rw [run_moveModule, run_moveModule]
  congr 1
  obtain ⟨⟨w, p⟩, reg⟩ := u
  simp only [placed, St.mk.injEq, and_true, Prod.mk.injEq, true_and]
  funext k
  by_cases hk : k = m
  · subst hk
    simp only [if_true]
    rw [moveParams_twice, moveParams_on h]
  · simp only [hk, if_false]

theorem cancel_post (comp stor : Dev) (mods : List ℕ) (place : Placement) :
    cancelRoundTrips comp stor (postRestore mods place) = postRestore mods place ∧
    ∀ a, cancelRoundTrips comp stor (a :: postRestore mods place) = a :: postRestore mods place := by
  have hmap : ∀ b ∈ postRestore mods place, ∀ a, isRoundTrip comp stor a b = false := by
    intro b hb a
    unfold postRestore at hb
    obtain ⟨m, _, rfl⟩ := List.mem_map.1 hb
    cases a with
    | moveModule t m => cases t <;> rfl
    | _ => rfl
  generalize postRestore mods place = l at hmap
  have h1 : cancelRoundTrips comp stor l = l := by
    induction l with
    | nil => rfl
    | cons b l ih =>
      rw [cancel_cons fun b' l' hl => hmap b' (by simp [hl]) b, ih fun c hc => hmap c (by simp [hc])]
  refine ⟨h1, fun a => ?_⟩
  rw [cancel_cons fun b' l' hl => hmap b' (by simp [hl]) a, h1]

theorem cancel_body (comp stor : Dev) (sem : Sem V W) (mods : List ℕ) (place : Placement) (is : List Instr) (hi : ∀ i ∈ is, i.Unplaced) :
    (∀ u, run (placed comp sem) (cancelRoundTrips comp stor (is.flatMap (block comp stor) ++ postRestore mods place)) u =
      run (placed comp sem) (is.flatMap (block comp stor) ++ postRestore mods place) u) ∧
    ∀ m u, ((∀ p ∈ u.w.2 m, p.2 = comp) ∨ ∀ i is', is = i :: is' → i.module? ≠ some m) →
      run (placed comp sem) (cancelRoundTrips comp stor (.moveModule (.dev stor) m :: (is.flatMap (block comp stor) ++ postRestore mods place))) u =
      run (placed comp sem) (.moveModule (.dev stor) m :: (is.flatMap (block comp stor) ++ postRestore mods place)) u := by
  induction is with
  | nil =>
    obtain ⟨h1, h2⟩ := cancel_post comp stor mods place
    simp only [List.flatMap_nil, List.nil_append]
    exact ⟨fun u => by rw [h1], fun m u _ => by rw [h2]⟩
  | cons i is ih =>
    obtain ⟨ih1, ih2⟩ := ih fun j hj => hi j (by simp [hj])
    obtain ⟨hp, hne⟩ := wrapActivations_passive (comp := comp) (stor := stor) (hi i (by simp))
    generalize hR : is.flatMap (block comp stor) ++ postRestore mods place = R at ih1 ih2
    have hflat : (i :: is).flatMap (block comp stor) ++ postRestore mods place = block comp stor i ++ R := by
      rw [List.flatMap_cons, List.append_assoc, hR]
    rw [hflat]
    generalize hA : wrapActivations comp stor i = A at hp hne
    have hhead : ∀ a R', isRoundTrip comp stor a (A.headD a) = false ∧ ∀ b l', A ++ R' = b :: l' → isRoundTrip comp stor a b = false := by
      intro a R'
      cases A with
      | nil => exact absurd rfl hne
      | cons x A =>
        refine ⟨isRoundTrip_right (hp x (by simp)), ?_⟩
        intro b l' h
        rw [List.cons_append, List.cons.injEq] at h
        rw [← h.1]
        exact isRoundTrip_right (hp x (by simp))
    cases hm : i.module? with
    | none =>
      rw [block_none hm, hA]
      refine ⟨?_, ?_⟩
      · intro u
        rw [cancel_pass A hp]
        exact run_congr A _ _ hp u fun u1 _ => ih1 u1
      · intro m u _
        rw [cancel_cons (hhead _ R).2, cancel_pass A hp, run_moveModule, run_moveModule]
        exact run_congr A _ _ hp _ fun u1 _ => ih1 u1
    | some k =>
      rw [block_some hm, hA, List.cons_append, List.append_assoc, List.singleton_append]
      -- after the module is on the compute device
      have inner : ∀ u : St (Placed V) (W × Placement), (∀ p ∈ u.w.2 k, p.2 = comp) →
          run (placed comp sem) (cancelRoundTrips comp stor (A ++ .moveModule (.dev stor) k :: R)) u =
          run (placed comp sem) (A ++ .moveModule (.dev stor) k :: R) u := by
        intro u hu
        rw [cancel_pass A hp]
        exact run_congr A _ _ hp u fun u1 hu1 => ih2 k u1 (Or.inl (by rw [hu1]; exact hu))
      have moved : ∀ u : St (Placed V) (W × Placement), ∀ p ∈ ((placed comp sem).moveModule u.w (.dev comp) k).2 k, p.2 = comp := by
        intro u p hpp
        simp only [placed, if_true] at hpp
        exact moveParams_dev _ _ p hpp
      refine ⟨?_, ?_⟩
      · intro u
        rw [cancel_cons (hhead _ _).2, run_moveModule, run_moveModule]
        exact inner _ (moved u)
      · intro m u hcond
        by_cases hmk : m = k
        · subst hmk
          have hon : ∀ p ∈ u.w.2 m, p.2 = comp := by
            rcases hcond with h | h
            · exact h
            · exact absurd hm (h i is rfl)
          have hrt : isRoundTrip comp stor (.moveModule (.dev stor) m) (.moveModule (.dev comp) m) = true := by simp [isRoundTrip]
          rw [cancelRoundTrips, if_pos hrt, round_trip hon]
          exact inner u hon
        · have hrt : isRoundTrip comp stor (.moveModule (.dev stor) m) (.moveModule (.dev comp) k) = false := by simp [isRoundTrip, hmk]
          rw [cancelRoundTrips, if_neg (by simp [hrt]), cancel_cons (hhead _ _).2, run_moveModule, run_moveModule, run_moveModule, run_moveModule]
          exact inner _ (moved _)

theorem cancel_insert (comp stor : Dev) (sem : Sem V W) (mods : List ℕ) (place : Placement) (is : List Instr) (hi : ∀ i ∈ is, i.Unplaced)
    (hn : mods.Nodup) (u : St (Placed V) (W × Placement))
    (hf : ∀ m i is', mods.getLast? = some m → is = i :: is' → i.module? = some m → ∀ p ∈ u.w.2 m, p.2 = comp) :
    run (placed comp sem) (cancelRoundTrips comp stor (insertMoves comp stor mods place is)) u =
      run (placed comp sem) (insertMoves comp stor mods place is) u := by
  rw [insertMoves_eq]
  obtain ⟨h1, h2⟩ := cancel_body comp stor sem mods place is hi
  have key : ∀ l : List ℕ, l.Nodup → ∀ u : St (Placed V) (W × Placement),
      (∀ m i is', l.getLast? = some m → is = i :: is' → i.module? = some m → ∀ p ∈ u.w.2 m, p.2 = comp) →
      run (placed comp sem) (cancelRoundTrips comp stor (preOffload stor l ++ (is.flatMap (block comp stor) ++ postRestore mods place))) u =
      run (placed comp sem) (preOffload stor l ++ (is.flatMap (block comp stor) ++ postRestore mods place)) u := by
    intro l
    induction l with
    | nil => intro _ u _; exact h1 u
    | cons a l ih =>
      intro hn u hf
      cases l with
      | nil =>
        apply h2 a u
        by_cases hc : ∃ i is', is = i :: is' ∧ i.module? = some a
        · obtain ⟨i, is', h3, h4⟩ := hc
          exact Or.inl (hf a i is' rfl h3 h4)
        · right
          intro i is' h3 h4
          exact hc ⟨i, is', h3, h4⟩
      | cons b l =>
        have hab : a ≠ b := by
          rintro rfl
          simp at hn
        have hrt : isRoundTrip comp stor (.moveModule (.dev stor) a) (.moveModule (.dev stor) b) = false := by simp [isRoundTrip, hab]
        have hpre : preOffload stor (a :: b :: l) = .moveModule (.dev stor) a :: .moveModule (.dev stor) b :: preOffload stor l := rfl
        rw [hpre, List.cons_append, List.cons_append, cancelRoundTrips, if_neg (by simp [hrt]), run_moveModule, run_moveModule]
        refine ih (List.nodup_cons.1 hn).2 _ ?_
        intro m i is' h3 h4 h5
        have hma : m ≠ a := by
          rintro rfl
          exact (List.nodup_cons.1 hn).1 (List.mem_of_getLast? h3)
        simp only [placed, hma, if_false]
        exact hf m i is' (by rw [List.getLast?_cons_cons]; exact h3) h4 h5
  exact key mods hn u hf

end FF.Orch
