import Verif.Orch.OffloadCancel

/-! # Removing redundant moves of activations -/

namespace FF.Orch

variable {V W : Type}

/-- The references whose entries an instruction changes. -/
def Instr.changes : Instr → List Ref
  | .store t _ => [t]
  | .load _ t _ => [t]
  | .call _ _ _ _ t _ => [t]
  | .delete ts => ts
  | .moveAct _ r => [r]
  | _ => []

theorem exec_frame {sem : Sem V W} {i : Instr} {u u1 : St V W} {o : Option (Out V)} (h : exec sem i u = .ok (u1, o)) {r : Ref}
    (hr : r ∉ i.changes) : u1.reg r = u.reg r := by
  cases i with
  | store t cs =>
    simp only [exec, Except.ok.injEq, Prod.mk.injEq] at h
    obtain ⟨rfl, rfl⟩ := h
    exact (store_contexts cs u.reg t (.constObj : Cell V)).1 r (by simpa [Instr.changes] using hr)
  | load s t a =>
    simp only [exec] at h
    split at h
    · simp at h
    · split at h
      · simp at h
      · rename_i hl
        simp only [Except.ok.injEq, Prod.mk.injEq] at h
        obtain ⟨rfl, rfl⟩ := h
        obtain ⟨m, _, rfl⟩ := loadAll_ok hl
        simp only
        rw [foldl_store, if_neg (by simpa [Instr.changes] using hr)]
  | call m im args kwargs t cs =>
    simp only [exec] at h
    split at h
    · simp at h
    · simp only [Except.ok.injEq, Prod.mk.injEq] at h
      obtain ⟨rfl, rfl⟩ := h
      have : r ≠ t := by simpa [Instr.changes] using hr
      simp only [Reg.storeAll, this, if_false]
  | optimize m args kwargs d =>
    simp only [exec] at h
    split at h
    · simp at h
    · split at h
      · simp at h
      · simp only [Except.ok.injEq, Prod.mk.injEq] at h
        obtain ⟨rfl, rfl⟩ := h
        rfl
  | ret outs =>
    simp only [exec] at h
    split at h
    · simp at h
    · simp only [Except.ok.injEq, Prod.mk.injEq] at h
      obtain ⟨rfl, rfl⟩ := h
      rfl
  | delete ts =>
    simp only [exec, Except.ok.injEq, Prod.mk.injEq] at h
    obtain ⟨rfl, rfl⟩ := h
    simp only [foldl_delete, show r ∉ ts from hr, if_false]
  | moveModule t m =>
    simp only [exec, Except.ok.injEq, Prod.mk.injEq] at h
    obtain ⟨rfl, rfl⟩ := h
    rfl
  | moveAct d r' =>
    simp only [exec] at h
    split at h
    · simp at h
    · split at h
      · simp at h
      · simp only [Except.ok.injEq, Prod.mk.injEq] at h
        obtain ⟨rfl, rfl⟩ := h
        have : r ≠ r' := by simpa [Instr.changes] using hr
        simp only [this, if_false]

theorem moveStreams_ok {comp : Dev} {sem : Sem V W} {d : Dev} {s s' : Streams (Placed V)} (h : moveStreams (placed comp sem) d s = .ok s') :
    (∀ p ∈ s, p.2 ≠ Cell.constObj) ∧ s' = movedStreams d s := by
  have hd : ∀ p ∈ s, p.2 ≠ Cell.constObj := by
    induction s generalizing s' with
    | nil => simp
    | cons p s ih =>
      obtain ⟨c, x⟩ := p
      cases x with
      | constObj => simp [moveStreams] at h
      | data vs =>
        simp only [moveStreams, bind, Except.bind] at h
        cases h1 : moveStreams (placed comp sem) d s with
        | error e => rw [h1] at h; simp at h
        | ok r =>
          intro p hp
          rcases List.mem_cons.1 hp with rfl | hp
          · simp
          · exact ih h1 p hp
  refine ⟨hd, ?_⟩
  rw [moveStreams_placed comp sem d s hd] at h
  simpa using h.symm

theorem exec_moveAct_inv {comp : Dev} {sem : Sem V W} {d : Dev} {r : Ref} {u u1 : St (Placed V) (W × Placement)} {o : Option (Out (Placed V))}
    (h : exec (placed comp sem) (.moveAct d r) u = .ok (u1, o)) :
    ∃ s, u.reg r = some s ∧ (∀ p ∈ s, p.2 ≠ Cell.constObj) ∧
      u1 = ⟨u.w, fun r' => if r' = r then some (movedStreams d s) else u.reg r'⟩ ∧ o = none := by
  simp only [exec] at h
  cases hs : u.reg r with
  | none => rw [hs] at h; simp at h
  | some s =>
    rw [hs] at h
    simp only at h
    cases hm : moveStreams (placed comp sem) d s with
    | error e => rw [hm] at h; simp at h
    | ok s' =>
      rw [hm] at h
      simp only [Except.ok.injEq, Prod.mk.injEq] at h
      obtain ⟨rfl, rfl⟩ := h
      obtain ⟨h1, rfl⟩ := moveStreams_ok hm
      exact ⟨s, rfl, h1, rfl, rfl⟩

theorem call_on_comp {comp : Dev} {sem : Sem V W} {u : St (Placed V) (W × Placement)} {m : ℕ} {args : List Ref} {kwargs : List (String × Ref)}
    {cs : List Ctx} {res : Streams (Placed V)} (h : callAll (placed comp sem) u m args kwargs cs = .ok res) : ∀ p ∈ res, CellOn comp p.2 := by
  have ht : ∀ w c args kwargs v, callTarget (placed comp sem) w c m args kwargs = .ok v → onDev comp v.2 := by
    intro w c args kwargs v hv
    unfold callTarget at hv
    split at hv
    · rename_i v' hv'
      simp only [Except.ok.injEq] at hv
      subst hv
      simp only [placed] at hv'
      split_ifs at hv'
      simp only [Option.map_eq_some_iff] at hv'
      obtain ⟨x, _, rfl⟩ := hv'
      right; rfl
    · simp at hv
  have h1 : ∀ c d, callOne (placed comp sem) u m args kwargs c = .ok d → ∀ v ∈ d, onDev comp v.2 := by
    intro c d hd
    unfold callOne at hd
    simp only [bind, Except.bind] at hd
    split at hd
    · simp at hd
    · split_ifs at hd
      · split at hd
        · simp at hd
        · rename_i v hv
          simp only [Except.ok.injEq] at hd
          subst hd
          intro v' hv'
          simp only [List.mem_singleton] at hv'
          subst hv'
          exact ht _ _ _ _ _ hv
      · intro v hv
        obtain ⟨i, _, hi⟩ := mapM_ok_mem hd v hv
        unfold callBatch at hi
        split at hi
        · simp at hi
        · exact ht _ _ _ _ _ hi
  induction cs generalizing res with
  | nil => simp only [callAll, Except.ok.injEq] at h; subst h; simp
  | cons c cs ih =>
    simp only [callAll, bind, Except.bind] at h
    cases hc : callOne (placed comp sem) u m args kwargs c with
    | error e => rw [hc] at h; simp at h
    | ok d =>
      rw [hc] at h
      simp only at h
      cases h2 : callAll (placed comp sem) u m args kwargs cs with
      | error e => rw [h2] at h; simp at h
      | ok rest =>
        rw [h2] at h
        simp only [Except.ok.injEq] at h
        subst h
        intro p hp
        rcases List.mem_cons.1 hp with rfl | hp
        · exact h1 c d hc
        · exact ih h2 p hp

/-! ### The buffer -/

/-- The state `u` of the program with all moves and the state `v` of the program emitted so far. -/
structure Buf (b : MoveBuffer) (u v : St (Placed V) (W × Placement)) : Prop where
  w : u.w = v.w
  pend : ∀ r d r0, Dict.get b.pending r = some (d, r0) → r0 = r ∧ r.NotConst ∧ r.unwrap = r ∧
    ∃ s, v.reg r = some s ∧ (∀ p ∈ s, p.2 ≠ Cell.constObj) ∧ u.reg r = some (movedStreams d s)
  same : ∀ r, Dict.get b.pending r = none → u.reg r = v.reg r
  dev : ∀ r d, Dict.get b.refDev r = some d → r.NotConst ∧ r.unwrap = r ∧ EntryOn d (v.reg r)
  nodup : (Dict.keys b.pending).Nodup

theorem get_filter {B : Type} (l : List (Ref × B)) (k k' : Ref) :
    Dict.get (l.filter fun p => p.1 ≠ k) k' = if k' = k then none else Dict.get l k' := by
  induction l with
  | nil => simp [Dict.get]
  | cons p l ih =>
    obtain ⟨a, x⟩ := p
    by_cases ha : a = k
    · subst ha
      rw [List.filter_cons_of_neg (by simp), ih]
      by_cases hk : k' = a
      · simp [hk]
      · rw [if_neg hk, if_neg hk]
        simp [Dict.get, Ne.symm hk]
    · rw [List.filter_cons_of_pos (by simpa using ha)]
      simp only [Dict.get, ih]
      by_cases hk : k' = k
      · subst hk; simp [ha]
      · simp [hk]

theorem keys_filter_nodup {B : Type} {l : List (Ref × B)} (h : (Dict.keys l).Nodup) (f : Ref × B → Bool) : (Dict.keys (l.filter f)).Nodup := by
  unfold Dict.keys at *
  exact h.sublist (List.Sublist.map _ List.filter_sublist)

/-- Flushing one reference. -/
theorem flush_buf {comp : Dev} {sem : Sem V W} {b : MoveBuffer} {u v v0 : St (Placed V) (W × Placement)} (h : Buf b u v)
    (hv : reaches (placed comp sem) b.result v0 = some v) (r : Ref) :
    ∃ v', reaches (placed comp sem) (b.flush r).result v0 = some v' ∧ Buf (b.flush r) u v' ∧
      (∀ k, Dict.get (b.flush r).pending k = if k = r.unwrap then none else Dict.get b.pending k) ∧
      (∀ k, Dict.get b.pending k = none → Dict.get (b.flush r).refDev k = Dict.get b.refDev k) ∧
      (∀ k, k ≠ r.unwrap → Dict.get (b.flush r).refDev k = Dict.get b.refDev k) ∧
      (∀ d r0, Dict.get b.pending r.unwrap = some (d, r0) → Dict.get (b.flush r).refDev r.unwrap = some d) := by
  unfold MoveBuffer.flush
  generalize r.unwrap = k0
  cases hp : Dict.get b.pending k0 with
  | none =>
    refine ⟨v, hv, h, ?_, fun _ _ => rfl, fun _ _ => rfl, by simp⟩
    intro k
    by_cases hk : k = k0
    · rw [if_pos hk, hk, hp]
    · rw [if_neg hk]
  | some mv =>
    obtain ⟨d, r0⟩ := mv
    simp only
    obtain ⟨rfl, hnc, hun, s, hs1, hs2, hs3⟩ := h.pend _ _ _ hp
    by_cases hd : Dict.get b.refDev r0 = some d
    · rw [if_pos hd]
      refine ⟨v, hv, ⟨h.w, ?_, ?_, h.dev, keys_filter_nodup h.nodup _⟩, get_filter _ _, fun _ _ => rfl, fun _ _ => rfl, ?_⟩
      · intro r' d' r1 hg
        simp only at hg
        rw [get_filter] at hg
        split_ifs at hg
        exact h.pend _ _ _ hg
      · intro r' hg
        simp only at hg
        rw [get_filter] at hg
        split_ifs at hg with hr
        · subst hr
          rw [hs3, hs1]
          rw [moved_of_on]
          have := (h.dev _ _ hd).2.2
          rwa [hs1] at this
        · exact h.same _ hg
      · intro d' r1 hg
        simp only [Option.some.injEq, Prod.mk.injEq] at hg
        rw [← hg.1]
        exact hd
    · rw [if_neg hd]
      refine ⟨⟨v.w, fun r' => if r' = r0 then some (movedStreams d s) else v.reg r'⟩, ?_, ⟨h.w, ?_, ?_, ?_, keys_filter_nodup h.nodup _⟩,
        get_filter _ _, ?_, ?_, ?_⟩
      · rw [reaches_append, hv, Option.bind_some, reaches_cons (exec_moveAct comp sem d r0 v s hs1 hs2)]
        rfl
      · intro r' d' r1 hg
        simp only at hg
        rw [get_filter] at hg
        split_ifs at hg with hr
        simp only [hr, if_false]
        exact h.pend _ _ _ hg
      · intro r' hg
        simp only at hg ⊢
        rw [get_filter] at hg
        split_ifs at hg with hr
        · subst hr
          rw [hs3, if_pos rfl]
        · rw [if_neg hr]; exact h.same _ hg
      · intro r' d' hg
        simp only at hg ⊢
        rw [Dict.get_set] at hg
        split_ifs at hg with hr
        · have hd' : d = d' := by simpa using hg
          subst hd'
          have hr' : r' = r0 := hr.symm ▸ rfl
          subst hr'
          refine ⟨hnc, hun, ?_⟩
          rw [if_pos rfl]
          exact moved_on d s
        · obtain ⟨h1, h2, h3⟩ := h.dev _ _ hg
          have hr' : r' ≠ r0 := by first | exact hr | exact fun h => hr h.symm
          refine ⟨h1, h2, ?_⟩
          rw [if_neg hr']
          exact h3
      · intro k hk
        simp only
        apply Dict.get_set_ne
        rintro rfl
        first | (rw [hp] at hk; simp at hk)
      · intro k hk
        simp only
        apply Dict.get_set_ne
        first | exact hk | exact Ne.symm hk
      · intro d' r1 hg
        simp only [Option.some.injEq, Prod.mk.injEq] at hg
        rw [← hg.1]
        simp

/-- Flushing everything an instruction uses. -/
theorem flush_all {comp : Dev} {sem : Sem V W} {b : MoveBuffer} {u v v0 : St (Placed V) (W × Placement)} (h : Buf b u v)
    (hv : reaches (placed comp sem) b.result v0 = some v) (rs : List Ref) :
    ∃ v', reaches (placed comp sem) (rs.foldl MoveBuffer.flush b).result v0 = some v' ∧ Buf (rs.foldl MoveBuffer.flush b) u v' ∧
      (∀ k, Dict.get (rs.foldl MoveBuffer.flush b).pending k = if k ∈ rs.map Ref.unwrap then none else Dict.get b.pending k) ∧
      (∀ k, Dict.get b.pending k = none → Dict.get (rs.foldl MoveBuffer.flush b).refDev k = Dict.get b.refDev k) ∧
      (∀ k ∈ rs.map Ref.unwrap, ∀ d r0, Dict.get b.pending k = some (d, r0) → Dict.get (rs.foldl MoveBuffer.flush b).refDev k = some d) := by
  induction rs generalizing b v with
  | nil => exact ⟨v, hv, h, by simp, fun _ _ => rfl, by simp⟩
  | cons r rs ih =>
    obtain ⟨v1, h1, h2, h3, h4, h5, h6⟩ := flush_buf h hv r
    obtain ⟨v2, g1, g2, g3, g4, g5⟩ := ih h2 h1
    refine ⟨v2, g1, g2, ?_, ?_, ?_⟩
    · intro k
      rw [List.foldl_cons, g3, h3]
      simp only [List.map_cons, List.mem_cons]
      by_cases h7 : k ∈ rs.map Ref.unwrap
      · simp [h7]
      · by_cases h8 : k = r.unwrap <;> simp [h7, h8]
    · intro k hk
      rw [List.foldl_cons, g4 k (by rw [h3, hk]; simp), h4 k hk]
    · intro k hk d r0 hg
      rw [List.foldl_cons]
      by_cases h8 : k = r.unwrap
      · subst h8
        rw [g4 _ (by rw [h3]; simp)]
        exact h6 d r0 hg
      · simp only [List.map_cons, List.mem_cons] at hk
        exact g5 k (hk.resolve_left h8) d r0 (by rw [h3, if_neg h8]; exact hg)

/-- Buffering one move. -/
theorem buffer_move {comp : Dev} {sem : Sem V W} {b : MoveBuffer} {u u1 v : St (Placed V) (W × Placement)} (h : Buf b u v) {d : Dev} {r : Ref}
    (hn : r.NotConst) (hun : r.unwrap = r) {o : Option (Out (Placed V))} (he : exec (placed comp sem) (.moveAct d r) u = .ok (u1, o)) :
    Buf (b.step comp (.moveAct d r)) u1 v ∧ (b.step comp (.moveAct d r)).result = b.result ∧
      (b.step comp (.moveAct d r)).refDev = b.refDev ∧
      (∀ k, Dict.get (b.step comp (.moveAct d r)).pending k = if k = r then some (d, r) else Dict.get b.pending k) := by
  obtain ⟨s, hs, hd, rfl, _⟩ := exec_moveAct_inv he
  have hpend : ∀ k, Dict.get (b.step comp (.moveAct d r)).pending k = if k = r then some (d, r) else Dict.get b.pending k := by
    intro k
    simp only [MoveBuffer.step, hun]
    by_cases hk : k = r
    · rw [if_pos hk, hk]; exact Dict.get_set_self _ _ _
    · rw [if_neg hk]
      apply Dict.get_set_ne
      first | exact hk | exact Ne.symm hk
  refine ⟨⟨h.w, ?_, ?_, h.dev, Dict.nodup_set h.nodup _ _⟩, rfl, rfl, hpend⟩
  · intro r' d' r0 hg
    rw [hpend] at hg
    by_cases hr : r' = r
    · subst hr
      simp only [if_true, Option.some.injEq, Prod.mk.injEq] at hg
      obtain ⟨rfl, rfl⟩ := hg
      refine ⟨rfl, hn, hun, ?_⟩
      cases hp : Dict.get b.pending r' with
      | none =>
        have := h.same _ hp
        exact ⟨s, by rw [← this, hs], hd, by simp⟩
      | some x =>
        obtain ⟨d0, r1⟩ := x
        obtain ⟨_, _, _, s0, h1, h2, h3⟩ := h.pend _ _ _ hp
        refine ⟨s0, h1, h2, ?_⟩
        rw [hs] at h3
        obtain rfl := Option.some.inj h3
        simp only [if_true]
        rw [moved_moved]
    · rw [if_neg hr] at hg
      simp only [hr, if_false]
      exact h.pend _ _ _ hg
  · intro r' hg
    rw [hpend] at hg
    split_ifs at hg with hr
    simp only [hr, if_false]
    exact h.same _ hg

/-- Buffering several moves to one device. -/
theorem buffer_moves {comp : Dev} {sem : Sem V W} (d : Dev) (rs : List Ref) (hrs : ∀ r ∈ rs, r.NotConst ∧ r.unwrap = r) {b : MoveBuffer}
    {u u1 v : St (Placed V) (W × Placement)} (h : Buf b u v) (he : reaches (placed comp sem) (rs.map fun r => .moveAct d r) u = some u1) :
    let b1 := (rs.map fun r => Instr.moveAct d r).foldl (MoveBuffer.step comp) b
    Buf b1 u1 v ∧ b1.result = b.result ∧ b1.refDev = b.refDev ∧
      (∀ k, Dict.get b1.pending k = if k ∈ rs then some (d, k) else Dict.get b.pending k) ∧
      (∀ k, k ∉ rs → u1.reg k = u.reg k) ∧ (∀ k, u.reg k = none → u1.reg k = none) := by
  induction rs generalizing b u with
  | nil =>
    simp only [List.map_nil, reaches, Option.some.injEq] at he
    subst he
    exact ⟨h, rfl, rfl, by simp, fun _ _ => rfl, fun _ h => h⟩
  | cons r rs ih =>
    simp only [List.map_cons] at he
    cases hx : exec (placed comp sem) (.moveAct d r) u with
    | error e => simp only [reaches, hx] at he; simp at he
    | ok x =>
      obtain ⟨u2, o⟩ := x
      obtain ⟨s, hs, _, hu2, ho⟩ := exec_moveAct_inv hx
      subst ho
      rw [reaches_cons hx] at he
      obtain ⟨h1, h2, h3, h4⟩ := buffer_move h (hrs r (by simp)).1 (hrs r (by simp)).2 hx
      have := ih (fun r' hr' => hrs r' (by simp [hr'])) h1 he
      simp only at this ⊢
      obtain ⟨g1, g2, g3, g4, g5, g6⟩ := this
      refine ⟨g1, g2.trans h2, g3.trans h3, ?_, ?_, ?_⟩
      · intro k
        rw [List.map_cons, List.foldl_cons, g4, h4]
        by_cases hk : k ∈ rs
        · simp [hk]
        · by_cases hkr : k = r
          · simp [hkr]
          · simp [hk, hkr]
      · intro k hk
        simp only [List.mem_cons, not_or] at hk
        rw [g5 k hk.2, hu2]
        simp [hk.1]
      · intro k hk
        apply g6
        rw [hu2]
        have : k ≠ r := by rintro rfl; rw [hs] at hk; simp at hk
        simp [this, hk]

/-- An instruction that is not a move, after everything it uses has been flushed. -/
theorem emit_instr {comp : Dev} {sem : Sem V W} {b : MoveBuffer} {u u1 v : St (Placed V) (W × Placement)} (h : Buf b u v) {i : Instr}
    (huse : ∀ r ∈ i.touches, Dict.get b.pending r = none) (hch : ∀ r ∈ i.changes, Dict.get b.pending r = none) {o : Option (Out (Placed V))}
    (he : exec (placed comp sem) i u = .ok (u1, o)) :
    ∃ v1, exec (placed comp sem) i v = .ok (v1, o) ∧ u1.w = v1.w ∧ (∀ r, Dict.get b.pending r = none → u1.reg r = v1.reg r) ∧
      (∀ r d r0, Dict.get b.pending r = some (d, r0) → u1.reg r = u.reg r ∧ v1.reg r = v.reg r) ∧
      ∀ r, r ∉ i.changes → v1.reg r = v.reg r := by
  have hag : Agree (fun r => Dict.get b.pending r = none) u v := ⟨h.w, h.same⟩
  rcases exec_agree (placed comp sem) i hag huse with ⟨e, h1, _⟩ | ⟨u2, v1, o', h1, h2, h3⟩
  · rw [he] at h1; simp at h1
  · rw [he] at h1
    simp only [Except.ok.injEq, Prod.mk.injEq] at h1
    obtain ⟨rfl, rfl⟩ := h1
    refine ⟨v1, h2, h3.1, h3.2, ?_, fun r hr => exec_frame h2 hr⟩
    intro r d r0 hg
    have hr : r ∉ i.changes := fun hr => by rw [hch r hr] at hg; simp at hg
    exact ⟨exec_frame he hr, exec_frame h2 hr⟩

end FF.Orch
