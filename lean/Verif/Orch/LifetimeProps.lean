import Verif.Orch.Passes
import Mathlib.Data.List.Basic

/-! # Activation lifetimes (C21) -/

namespace FF.Orch

variable {V W : Type}

/-- References an instruction list mentions. -/
def touched (is : List Instr) : List Ref := is.flatMap Instr.touches

/-! ### Execution depends only on the mentioned references -/

/-- Same modules, same entries for the references in `T`. -/
def Agree (T : Ref → Prop) (s s' : St V W) : Prop := s.w = s'.w ∧ ∀ r, T r → s.reg r = s'.reg r

theorem getDataset_congr (sem : Sem V W) {reg reg' : Reg V} (c : Ctx) (r : Ref) (h : reg r = reg' r) :
    getDataset sem reg c r = getDataset sem reg' c r := by
  cases r <;> simp only [getDataset, Reg.load, h]

theorem mapM_congr_except {α β : Type} {f f' : α → Except EErr β} (l : List α) (h : ∀ x ∈ l, f x = f' x) : l.mapM f = l.mapM f' := by
  induction l with
  | nil => rfl
  | cons a as ih => rw [List.mapM_cons, List.mapM_cons, h a (by simp), ih fun x hx => h x (by simp [hx])]

theorem gather_congr (sem : Sem V W) {reg reg' : Reg V} (c : Ctx) (args : List Ref) (kwargs : List (String × Ref))
    (h : ∀ r ∈ args ++ kwargs.map (·.2), reg r = reg' r) : gather sem reg c args kwargs = gather sem reg' c args kwargs := by
  unfold gather
  rw [mapM_congr_except args fun x hx => getDataset_congr sem c x (h x (by simp [hx])),
    mapM_congr_except (kwargs.map (·.2)) fun x hx => getDataset_congr sem c x (h x (List.mem_append.2 (Or.inr hx)))]

theorem callAll_congr (sem : Sem V W) {s s' : St V W} (m : ℕ) (args : List Ref) (kwargs : List (String × Ref)) (cs : List Ctx)
    (hw : s.w = s'.w) (h : ∀ r ∈ args ++ kwargs.map (·.2), s.reg r = s'.reg r) :
    callAll sem s m args kwargs cs = callAll sem s' m args kwargs cs := by
  induction cs with
  | nil => rfl
  | cons c cs ih => simp only [callAll, ih]; unfold callOne; rw [gather_congr sem c args kwargs h, hw]

theorem loadAll_congr (sem : Sem V W) (a : Attr) (t : Ref) (str : Streams V) {T : Ref → Prop} (ht : T t) :
    ∀ {reg reg' : Reg V}, (∀ r, T r → reg r = reg' r) →
    (∃ e, loadAll sem a t str reg = .error e ∧ loadAll sem a t str reg' = .error e) ∨
    ∃ r1 r2, loadAll sem a t str reg = .ok r1 ∧ loadAll sem a t str reg' = .ok r2 ∧ ∀ r, T r → r1 r = r2 r := by
  induction str with
  | nil => intro reg reg' h; exact Or.inr ⟨reg, reg', rfl, rfl, h⟩
  | cons p rest ih =>
    intro reg reg' h
    obtain ⟨c, cell⟩ := p
    cases cell with
    | constObj => exact Or.inl ⟨.diverges, rfl, rfl⟩
    | data d =>
      simp only [loadAll]
      cases sem.extract a d with
      | none => exact Or.inl ⟨.lookupError, rfl, rfl⟩
      | some d' =>
        apply ih
        intro r hr
        unfold Reg.store
        by_cases hrt : r = t
        · simp only [hrt, if_true, h t ht]
        · simp only [hrt, if_false, h r hr]

theorem collectOutputs_congr {reg reg' : Reg V} (outs : List Ref) (acc : List (Ctx × List (List V)))
    (h : ∀ r ∈ outs, reg r = reg' r) : collectOutputs reg outs acc = collectOutputs reg' outs acc := by
  induction outs generalizing acc with
  | nil => rfl
  | cons r rs ih =>
    simp only [collectOutputs, h r (by simp)]
    cases reg' r with
    | none => rfl
    | some s =>
      simp only
      cases addOutput acc s with
      | error e => rfl
      | ok acc' => exact ih acc' fun x hx => h x (by simp [hx])

theorem foldl_delete (ts : List Ref) (reg : Reg V) (r : Ref) : ts.foldl Reg.delete reg r = if r ∈ ts then none else reg r := by
  induction ts generalizing reg with
  | nil => simp
  | cons t ts ih =>
    rw [List.foldl_cons, ih]
    unfold Reg.delete
    by_cases h1 : r ∈ ts
    · simp [h1]
    · by_cases h2 : r = t
      · simp [h2]
      · simp [h1, h2]

theorem foldl_store_congr {T : Ref → Prop} (t : Ref) (x : Cell V) (cs : List Ctx) (ht : T t) :
    ∀ {reg reg' : Reg V}, (∀ r, T r → reg r = reg' r) → ∀ r, T r →
      cs.foldl (fun reg c => reg.store t c x) reg r = cs.foldl (fun reg c => reg.store t c x) reg' r := by
  induction cs with
  | nil => intro reg reg' h r hr; exact h r hr
  | cons c cs ih =>
    intro reg reg' h
    apply ih
    intro r hr
    unfold Reg.store
    by_cases hrt : r = t
    · simp only [hrt, if_true, h t ht]
    · simp only [hrt, if_false, h r hr]

/-- Two states that agree on the references an instruction mentions (and possibly more) behave the same, and still agree. -/
theorem exec_agree (sem : Sem V W) (i : Instr) {T : Ref → Prop} {s s' : St V W} (h : Agree T s s') (ht : ∀ r ∈ i.touches, T r) :
    (∃ e, exec sem i s = .error e ∧ exec sem i s' = .error e) ∨
    ∃ s1 s2 o, exec sem i s = .ok (s1, o) ∧ exec sem i s' = .ok (s2, o) ∧ Agree T s1 s2 := by
  obtain ⟨hw, hr⟩ := h
  cases i with
  | store t cs =>
    right
    exact ⟨_, _, none, rfl, rfl, hw, foldl_store_congr t _ cs (ht t (by simp [Instr.touches, Instr.uses])) hr⟩
  | load src t a =>
    have hsrc := hr src (ht src (by simp [Instr.touches, Instr.uses]))
    simp only [exec, hsrc]
    cases s'.reg src with
    | none => exact Or.inl ⟨_, rfl, rfl⟩
    | some str =>
      simp only
      rcases loadAll_congr sem a t str (ht t (by simp [Instr.touches, Instr.produces])) hr with ⟨e, h1, h2⟩ | ⟨r1, r2, h1, h2, h3⟩
      · left; exact ⟨e, by rw [h1], by rw [h2]⟩
      · right; exact ⟨⟨s.w, r1⟩, ⟨s'.w, r2⟩, none, by rw [h1], by rw [h2], hw, h3⟩
  | call m im args kwargs t cs =>
    have hcall := callAll_congr sem (s := s) (s' := s') m args kwargs cs hw fun r hr' => hr r (ht r (by
      simp only [Instr.touches, Instr.uses, List.mem_append] at hr' ⊢; exact Or.inl hr'))
    simp only [exec, hcall]
    cases callAll sem s' m args kwargs cs with
    | error e => exact Or.inl ⟨e, rfl, rfl⟩
    | ok res =>
      right
      refine ⟨_, _, none, rfl, rfl, hw, ?_⟩
      intro r hrT
      unfold Reg.storeAll
      by_cases hrt : r = t
      · simp only [hrt, if_true, hr t (ht t (by simp [Instr.touches, Instr.produces]))]
      · simp only [hrt, if_false, hr r hrT]
  | optimize m args kwargs d =>
    have hg : (d.contexts.mapM fun c => gather sem s.reg c args kwargs) = d.contexts.mapM fun c => gather sem s'.reg c args kwargs :=
      mapM_congr_except _ fun c _ => gather_congr sem c args kwargs fun r hr' => hr r (ht r (by
        simp only [Instr.touches, Instr.uses, List.mem_append] at hr' ⊢; exact Or.inl hr'))
    simp only [exec, hg, hw]
    cases d.contexts.mapM fun c => gather sem s'.reg c args kwargs with
    | error e => exact Or.inl ⟨e, rfl, rfl⟩
    | ok b =>
      simp only
      cases sem.optimize s'.w d.fn m b with
      | none => exact Or.inl ⟨_, rfl, rfl⟩
      | some w => exact Or.inr ⟨_, _, none, rfl, rfl, rfl, hr⟩
  | ret outs =>
    have hc : returnOutputs s.reg outs = returnOutputs s'.reg outs := by
      unfold returnOutputs
      rw [collectOutputs_congr outs [] fun r hr' => hr r (ht r (by simpa [Instr.touches, Instr.uses, Instr.produces] using hr'))]
    simp only [exec, hc]
    cases returnOutputs s'.reg outs with
    | error e => exact Or.inl ⟨e, rfl, rfl⟩
    | ok o => exact Or.inr ⟨_, _, some o, rfl, rfl, hw, hr⟩
  | delete ts =>
    right
    refine ⟨_, _, none, rfl, rfl, hw, ?_⟩
    intro r hrT
    simp only [foldl_delete, hr r hrT]
  | moveModule dst m => exact Or.inr ⟨_, _, none, rfl, rfl, by simp [hw], hr⟩
  | moveAct d r =>
    have hsrc := hr r (ht r (by simp [Instr.touches, Instr.uses]))
    simp only [exec, hsrc]
    cases s'.reg r with
    | none => exact Or.inl ⟨_, rfl, rfl⟩
    | some str =>
      simp only
      cases moveStreams sem d str with
      | error e => exact Or.inl ⟨e, rfl, rfl⟩
      | ok str' =>
        right
        refine ⟨_, _, none, rfl, rfl, hw, ?_⟩
        intro r' hrT
        by_cases hrr : r' = r
        · simp [hrr]
        · simp [hrr, hr r' hrT]

/-! ### The pass, suffix by suffix -/

theorem foldl_addLast (idx : ℕ) (refs : List Ref) (acc : List (Ref × ℕ)) :
    ∃ new : List Ref, refs.foldl (addLast idx) acc = acc ++ new.map (fun r => (r, idx)) ∧
      (∀ r, r ∈ new ↔ r ∈ refs ∧ r ∉ acc.map (·.1)) := by
  induction refs generalizing acc with
  | nil => exact ⟨[], by simp, by simp⟩
  | cons r rs ih =>
    rw [List.foldl_cons]
    unfold addLast
    by_cases h : r ∈ acc.map (·.1)
    · rw [if_pos h]
      obtain ⟨new, h1, h2⟩ := ih acc
      refine ⟨new, by rw [← h1]; rfl, ?_⟩
      intro x
      rw [h2]
      constructor
      · exact fun hx => ⟨by simp [hx.1], hx.2⟩
      · rintro ⟨hx1, hx2⟩
        rcases List.mem_cons.1 hx1 with rfl | hx1
        · exact absurd h hx2
        · exact ⟨hx1, hx2⟩
    · rw [if_neg h]
      obtain ⟨new, h1, h2⟩ := ih (acc ++ [(r, idx)])
      refine ⟨r :: new, ?_, ?_⟩
      · have : List.foldl (addLast idx) (acc ++ [(r, idx)]) rs = acc ++ [(r, idx)] ++ List.map (fun r => (r, idx)) new := h1
        unfold addLast at this
        simp only [this]; simp
      · intro x
        rw [List.mem_cons, h2]
        simp only [List.map_append, List.map_cons, List.map_nil, List.mem_append, not_or, List.mem_cons]
        constructor
        · rintro (rfl | ⟨h3, h4, h5⟩)
          · exact ⟨Or.inl rfl, h⟩
          · exact ⟨Or.inr h3, h4⟩
        · rintro ⟨h3, h4⟩
          by_cases hx : x = r
          · exact Or.inl hx
          · rcases h3 with h3 | h3
            · exact absurd h3 hx
            · exact Or.inr ⟨h3, h4, hx, by simp⟩

def lastFrom (off : ℕ) (is : List Instr) : List (Ref × ℕ) :=
  (is.zipIdx off).reverse.foldl (fun acc p => p.1.touches.foldl (addLast p.2) acc) []

theorem lastFrom_cons (off : ℕ) (i : Instr) (is : List Instr) :
    lastFrom off (i :: is) = i.touches.foldl (addLast off) (lastFrom (off + 1) is) := by
  unfold lastFrom
  rw [List.zipIdx_cons, List.reverse_cons, List.foldl_append]
  rfl

theorem lastFrom_spec (off : ℕ) (is : List Instr) :
    (∀ p ∈ lastFrom off is, off ≤ p.2) ∧ ∀ r, r ∈ (lastFrom off is).map (·.1) ↔ r ∈ touched is := by
  induction is generalizing off with
  | nil => simp [lastFrom, touched]
  | cons i is ih =>
    obtain ⟨h1, h2⟩ := ih (off + 1)
    obtain ⟨new, h3, h4⟩ := foldl_addLast off i.touches (lastFrom (off + 1) is)
    rw [lastFrom_cons, h3]
    constructor
    · intro p hp
      rcases List.mem_append.1 hp with hp | hp
      · have := h1 p hp; omega
      · obtain ⟨r, _, rfl⟩ := List.mem_map.1 hp; simp
    · intro r
      rw [List.map_append, List.mem_append, h2]
      simp only [List.map_map, touched, List.flatMap_cons, List.mem_append]
      have : (List.map ((fun x : Ref × ℕ => x.1) ∘ fun r => (r, off)) new) = new := by
        have : ((fun x : Ref × ℕ => x.1) ∘ fun r => (r, off)) = id := rfl
        rw [this, List.map_id]
      rw [this, h4, h2]
      simp only [touched]
      tauto

/-- What the pass deletes after the first instruction of a suffix. -/
theorem toDelete_head (keep : List Ref) (off : ℕ) (i : Instr) (is : List Instr) (r : Ref) :
    r ∈ toDelete keep (lastFrom off (i :: is)) off ↔ r ∈ i.touches ∧ r ∉ touched is ∧ r ∉ keep := by
  obtain ⟨h1, h2⟩ := lastFrom_spec (off + 1) is
  obtain ⟨new, h3, h4⟩ := foldl_addLast off i.touches (lastFrom (off + 1) is)
  unfold toDelete
  rw [lastFrom_cons, h3, List.mem_map]
  constructor
  · rintro ⟨⟨r', k⟩, hp, rfl⟩
    simp only [List.mem_filter, List.mem_append, List.mem_map, Prod.mk.injEq, decide_eq_true_eq] at hp
    obtain ⟨hp | ⟨a, ha, rfl, rfl⟩, hk, hkeep⟩ := hp
    · have := h1 _ hp; simp only at this; omega
    · have := (h4 a).1 ha
      exact ⟨this.1, fun hc => this.2 ((h2 a).2 hc), hkeep⟩
  · rintro ⟨h5, h6, h7⟩
    refine ⟨(r, off), ?_, rfl⟩
    simp only [List.mem_filter, List.mem_append, List.mem_map, Prod.mk.injEq, decide_eq_true_eq]
    exact ⟨Or.inr ⟨r, (h4 r).2 ⟨h5, fun hc => h6 ((h2 r).1 hc)⟩, by simp⟩, by trivial, h7⟩

/-- Later indices do not see the first instruction. -/
theorem toDelete_tail (keep : List Ref) (off idx : ℕ) (h : off < idx) (i : Instr) (is : List Instr) :
    toDelete keep (lastFrom off (i :: is)) idx = toDelete keep (lastFrom (off + 1) is) idx := by
  obtain ⟨new, h3, _⟩ := foldl_addLast off i.touches (lastFrom (off + 1) is)
  unfold toDelete
  rw [lastFrom_cons, h3, List.filter_append, List.map_append]
  have : (List.filter (fun p : Ref × ℕ => decide (p.2 = idx ∧ p.1 ∉ keep)) (new.map fun r => (r, off))) = [] := by
    rw [List.filter_eq_nil_iff]
    intro p hp
    obtain ⟨r, _, rfl⟩ := List.mem_map.1 hp
    simp; omega
  rw [this]; simp

/-- The pass on a suffix. -/
def lifeFrom (keep : List Ref) (off : ℕ) (is : List Instr) : List Instr :=
  (is.zipIdx off).flatMap fun p =>
    let d := toDelete keep (lastFrom off is) p.2
    if d.isEmpty then [p.1] else [p.1, .delete d]

theorem lifeFrom_cons (keep : List Ref) (off : ℕ) (i : Instr) (is : List Instr) :
    ∃ d, lifeFrom keep off (i :: is) = (i :: (if d = [] then [] else [.delete d])) ++ lifeFrom keep (off + 1) is ∧
      ∀ r, r ∈ d ↔ r ∈ i.touches ∧ r ∉ touched is ∧ r ∉ keep := by
  refine ⟨toDelete keep (lastFrom off (i :: is)) off, ?_, toDelete_head keep off i is⟩
  have htail : ∀ p ∈ is.zipIdx (off + 1), toDelete keep (lastFrom off (i :: is)) p.2 = toDelete keep (lastFrom (off + 1) is) p.2 := by
    intro p hp
    have := List.le_snd_of_mem_zipIdx hp
    exact toDelete_tail keep off p.2 (by omega) i is
  unfold lifeFrom
  rw [List.zipIdx_cons, List.flatMap_cons]
  congr 1
  · by_cases hd : toDelete keep (lastFrom off (i :: is)) off = []
    · simp [hd]
    · rw [if_neg hd]
      have : (toDelete keep (lastFrom off (i :: is)) off).isEmpty = false := by simpa using hd
      simp [this]
  · rw [List.flatMap_def, List.flatMap_def]
    congr 1
    apply List.map_congr_left
    intro p hp
    simp only [htail p hp]

theorem lifetimePass_eq (is : List Instr) : lifetimePass is = lifeFrom (keepAlive is) 0 is := rfl

theorem run_cons_ok (sem : Sem V W) {i : Instr} {s s' : St V W} (h : exec sem i s = .ok (s', none)) (is : List Instr) :
    run sem (i :: is) s = run sem is s' := by
  simp only [run, h]

theorem run_delete (sem : Sem V W) (d : List Ref) (is : List Instr) (s : St V W) :
    run sem ((if d = [] then [] else [.delete d]) ++ is) s = run sem is ⟨s.w, d.foldl Reg.delete s.reg⟩ := by
  by_cases h : d = []
  · subst h; simp
  · rw [if_neg h]
    exact run_cons_ok sem (s' := ⟨s.w, d.foldl Reg.delete s.reg⟩) rfl is

theorem lifeFrom_run (sem : Sem V W) (keep : List Ref) (is : List Instr) (off : ℕ) (s s' : St V W)
    (h : Agree (fun r => r ∈ touched is) s s') :
    (run sem (lifeFrom keep off is) s').2 = (run sem is s).2 ∧ (run sem (lifeFrom keep off is) s').1.w = (run sem is s).1.w := by
  induction is generalizing off s s' with
  | nil => exact ⟨rfl, h.1.symm⟩
  | cons i is ih =>
    obtain ⟨d, hd, hdm⟩ := lifeFrom_cons keep off i is
    rw [hd, List.cons_append]
    rcases exec_agree sem i h (fun r hr => by simp [touched, hr]) with ⟨e, h1, h2⟩ | ⟨s1, s2, o, h1, h2, h3⟩
    · simp only [run, h1, h2]; exact ⟨trivial, h.1.symm⟩
    · cases o with
      | some o => simp only [run, h1, h2]; exact ⟨trivial, h3.1.symm⟩
      | none =>
        rw [run_cons_ok sem h1, run_cons_ok sem h2, run_delete]
        apply ih
        refine ⟨h3.1, ?_⟩
        intro r hr
        show s1.reg r = d.foldl Reg.delete s2.reg r
        rw [foldl_delete, if_neg (fun hc => ((hdm r).1 hc).2.1 hr)]
        exact h3.2 r (by simp only [touched, List.flatMap_cons, List.mem_append]; exact Or.inr hr)

/-! ### Properties -/

/-- **C21.** Inserting the deletions changes neither what a program returns or raises nor what it does to the modules. -/
theorem lifetime_pass_same_result (sem : Sem V W) (is : List Instr) (s : St V W) :
    (run sem (lifetimePass is) s).2 = (run sem is s).2 ∧ (run sem (lifetimePass is) s).1.w = (run sem is s).1.w := by
  rw [lifetimePass_eq]
  exact lifeFrom_run sem _ is 0 s s ⟨rfl, fun _ _ => rfl⟩

theorem touches_new (sem : Sem V W) (i : Instr) (s s' : St V W) (o : Option (Out V)) (h : exec sem i s = .ok (s', o)) (r : Ref)
    (hr : (s'.reg r).isSome) : r ∈ i.touches ∨ (s.reg r).isSome := by
  cases i with
  | store t cs =>
    simp only [exec, Except.ok.injEq, Prod.mk.injEq] at h
    obtain ⟨rfl, _⟩ := h
    by_cases hrt : r = t
    · left; simp [hrt, Instr.touches, Instr.uses]
    · right
      have : ∀ (cs : List Ctx) (reg : Reg V), cs.foldl (fun reg c => reg.store t c .constObj) reg r = reg r := by
        intro cs
        induction cs with
        | nil => intro reg; rfl
        | cons c cs ih => intro reg; rw [List.foldl_cons, ih]; simp [Reg.store, hrt]
      simpa [this] using hr
  | load src t a =>
    by_cases hrt : r = t
    · left; simp [hrt, Instr.touches, Instr.produces]
    · right
      simp only [exec] at h
      cases hs : s.reg src with
      | none => simp [hs] at h
      | some str =>
        simp only [hs] at h
        have gen : ∀ (str : Streams V) (reg reg' : Reg V), loadAll sem a t str reg = .ok reg' → reg' r = reg r := by
          intro str
          induction str with
          | nil => intro reg reg' h; simp only [loadAll, Except.ok.injEq] at h; rw [h]
          | cons p rest ih =>
            intro reg reg' h
            obtain ⟨c, cell⟩ := p
            cases cell with
            | constObj => simp [loadAll] at h
            | data d =>
              simp only [loadAll] at h
              cases hx : sem.extract a d with
              | none => simp [hx] at h
              | some d' => simp only [hx] at h; rw [ih _ _ h]; simp [Reg.store, hrt]
        cases hl : loadAll sem a t str s.reg with
        | error e => simp [hl] at h
        | ok reg =>
          simp only [hl, Except.ok.injEq, Prod.mk.injEq] at h
          obtain ⟨rfl, _⟩ := h
          rw [← gen _ _ _ hl]; exact hr
  | call m im args kwargs t cs =>
    by_cases hrt : r = t
    · left; simp [hrt, Instr.touches, Instr.produces]
    · right
      simp only [exec] at h
      cases hc : callAll sem s m args kwargs cs with
      | error e => simp [hc] at h
      | ok res =>
        simp only [hc, Except.ok.injEq, Prod.mk.injEq] at h
        obtain ⟨rfl, _⟩ := h
        simpa [Reg.storeAll, hrt] using hr
  | optimize m args kwargs d =>
    right
    simp only [exec] at h
    split at h
    · simp at h
    · split at h
      · simp at h
      · simp only [Except.ok.injEq, Prod.mk.injEq] at h
        obtain ⟨rfl, _⟩ := h
        exact hr
  | ret outs =>
    right
    simp only [exec] at h
    split at h
    · simp at h
    · simp only [Except.ok.injEq, Prod.mk.injEq] at h
      obtain ⟨rfl, _⟩ := h
      exact hr
  | delete ts =>
    right
    simp only [exec, Except.ok.injEq, Prod.mk.injEq] at h
    obtain ⟨rfl, _⟩ := h
    simp only [foldl_delete] at hr
    split_ifs at hr
    · simp at hr
    · exact hr
  | moveModule dst m =>
    right
    simp only [exec, Except.ok.injEq, Prod.mk.injEq] at h
    obtain ⟨rfl, _⟩ := h
    exact hr
  | moveAct d r' =>
    by_cases hrr : r = r'
    · left; simp [hrr, Instr.touches, Instr.uses]
    · right
      simp only [exec] at h
      split at h
      · simp at h
      · split at h
        · simp at h
        · simp only [Except.ok.injEq, Prod.mk.injEq] at h
          obtain ⟨rfl, _⟩ := h
          simpa [hrr] using hr

/-- The state after executing all of `is`, if nothing raised or returned. -/
def reaches (sem : Sem V W) : List Instr → St V W → Option (St V W)
  | [], s => some s
  | i :: is, s => match exec sem i s with
    | .ok (s', none) => reaches sem is s'
    | _ => none

theorem reaches_append (sem : Sem V W) (p q : List Instr) (s : St V W) :
    reaches sem (p ++ q) s = (reaches sem p s).bind (reaches sem q) := by
  induction p generalizing s with
  | nil => rfl
  | cons i p ih =>
    simp only [List.cons_append, reaches]
    split
    · exact ih _
    · rfl

theorem lifeFrom_retained (sem : Sem V W) (keep : List Ref) (is : List Instr) (off : ℕ) (s : St V W) (p q : List Instr)
    (hpq : lifeFrom keep off is = p ++ q) (hq : ∀ d rest, q ≠ .delete d :: rest) (s' : St V W) (hs : reaches sem p s = some s')
    (r : Ref) (hr : (s'.reg r).isSome) : r ∈ touched q ∨ r ∈ keep ∨ ((s.reg r).isSome ∧ r ∉ touched p) := by
  induction is generalizing off s p with
  | nil =>
    simp only [lifeFrom, List.zipIdx_nil, List.flatMap_nil] at hpq
    obtain ⟨rfl, rfl⟩ := List.append_eq_nil_iff.1 hpq.symm
    simp only [reaches, Option.some.injEq] at hs
    subst hs
    right; right; exact ⟨hr, by simp [touched]⟩
  | cons i is ih =>
    obtain ⟨d, hd, hdm⟩ := lifeFrom_cons keep off i is
    have htl : ∀ r, r ∈ touched (lifeFrom keep (off + 1) is) ↔ r ∈ touched is := by
      have gen : ∀ (is : List Instr) (off : ℕ) (r : Ref), r ∈ touched (lifeFrom keep off is) ↔ r ∈ touched is := by
        intro is
        induction is with
        | nil => intro off r; simp [lifeFrom, touched]
        | cons i is ih =>
          intro off r
          obtain ⟨d, hd, _⟩ := lifeFrom_cons keep off i is
          rw [hd]
          have h1 := ih (off + 1) r
          unfold touched at h1 ⊢
          rw [List.flatMap_append, List.mem_append, h1, List.flatMap_cons, List.flatMap_cons, List.mem_append, List.mem_append]
          have : (if d = [] then [] else [Instr.delete d]).flatMap Instr.touches = [] := by
            split_ifs <;> simp [Instr.touches, Instr.uses, Instr.produces]
          rw [this]; simp
      exact gen is (off + 1)
    rw [hd] at hpq
    cases p with
    | nil =>
      simp only [reaches, Option.some.injEq] at hs
      subst hs
      right; right; exact ⟨hr, by simp [touched]⟩
    | cons i' p =>
      simp only [List.cons_append, List.cons.injEq] at hpq
      obtain ⟨rfl, hpq⟩ := hpq
      simp only [reaches] at hs
      split at hs
      case h_2 => simp at hs
      case h_1 s1 he =>
        have hsub : ∀ (p' : List Instr), lifeFrom keep (off + 1) is = p' ++ q → ∀ r, r ∈ touched is → r ∈ touched p' ∨ r ∈ touched q := by
          intro p' hp' r hr
          have := (htl r).2 hr
          rw [hp'] at this
          unfold touched at this ⊢
          rwa [List.flatMap_append, List.mem_append] at this
        by_cases hdn : d = []
        · rw [if_pos hdn, List.nil_append] at hpq
          rcases ih (off + 1) s1 p hpq hs with h1 | h1 | ⟨h1, h2⟩
          · exact Or.inl h1
          · exact Or.inr (Or.inl h1)
          · rcases touches_new sem i s s1 none he r h1 with h3 | h3
            · by_cases hk : r ∈ keep
              · exact Or.inr (Or.inl hk)
              · by_cases ht : r ∈ touched is
                · rcases hsub p hpq r ht with h4 | h4
                  · exact absurd h4 h2
                  · exact Or.inl h4
                · have := (hdm r).2 ⟨h3, ht, hk⟩
                  rw [hdn] at this; simp at this
            · by_cases hti : r ∈ i.touches
              · by_cases hk : r ∈ keep
                · exact Or.inr (Or.inl hk)
                · by_cases ht : r ∈ touched is
                  · rcases hsub p hpq r ht with h4 | h4
                    · exact absurd h4 h2
                    · exact Or.inl h4
                  · have := (hdm r).2 ⟨hti, ht, hk⟩
                    rw [hdn] at this; simp at this
              · right; right
                refine ⟨h3, ?_⟩
                simp only [touched, List.flatMap_cons, List.mem_append, not_or]
                exact ⟨hti, h2⟩
        · rw [if_neg hdn] at hpq
          cases p with
          | nil => exact absurd hpq.symm (hq d _)
          | cons j p =>
            simp only [List.cons_append, List.nil_append, List.cons.injEq] at hpq
            obtain ⟨rfl, hpq⟩ := hpq
            simp only [reaches, exec] at hs
            rcases ih (off + 1) _ p hpq hs with h1 | h1 | ⟨h1, h2⟩
            · exact Or.inl h1
            · exact Or.inr (Or.inl h1)
            · simp only [foldl_delete] at h1
              split_ifs at h1 with hrd
              · simp at h1
              · have hdd : touched (Instr.delete d :: p) = touched p := by
                  simp [touched, Instr.touches, Instr.uses, Instr.produces]
                have hti : r ∈ i.touches → r ∈ touched q ∨ r ∈ keep := by
                  intro hti
                  by_cases hk : r ∈ keep
                  · exact Or.inr hk
                  · by_cases ht : r ∈ touched is
                    · rcases hsub p hpq r ht with h4 | h4
                      · exact absurd h4 h2
                      · exact Or.inl h4
                    · exact absurd ((hdm r).2 ⟨hti, ht, hk⟩) hrd
                rcases touches_new sem i s s1 none he r h1 with h3 | h3
                · rcases hti h3 with h4 | h4
                  · exact Or.inl h4
                  · exact Or.inr (Or.inl h4)
                · by_cases ht : r ∈ i.touches
                  · rcases hti ht with h4 | h4
                    · exact Or.inl h4
                    · exact Or.inr (Or.inl h4)
                  · right; right
                    refine ⟨h3, ?_⟩
                    have : touched (i :: Instr.delete d :: p) = i.touches ++ touched p := by
                      rw [← hdd]; simp [touched]
                    rw [this, List.mem_append, not_or]
                    exact ⟨ht, h2⟩

/-- **C21.** After any instruction (and its deletion), the only entries left in the register are those that a later instruction
mentions, the program's outputs, and initial entries that no instruction so far has mentioned. -/
theorem lifetime_pass_frees (sem : Sem V W) (is : List Instr) (s s' : St V W) (p q : List Instr) (hpq : lifetimePass is = p ++ q)
    (hq : ∀ d rest, q ≠ .delete d :: rest) (hs : reaches sem p s = some s') (r : Ref) (hr : (s'.reg r).isSome) :
    r ∈ touched q ∨ (∃ outs, Instr.ret outs ∈ is ∧ r ∈ outs) ∨ ((s.reg r).isSome ∧ r ∉ touched p) := by
  rw [lifetimePass_eq] at hpq
  rcases lifeFrom_retained sem _ is 0 s p q hpq hq s' hs r hr with h | h | h
  · exact Or.inl h
  · right; left
    unfold keepAlive at h
    rw [List.mem_flatMap] at h
    obtain ⟨i, hi, hri⟩ := h
    cases i with
    | ret outs => exact ⟨outs, hi, by simpa [Instr.uses] using hri⟩
    | _ => simp at hri
  · exact Or.inr (Or.inr h)

/-! ### A concrete case -/

/-- Two nodes in a row: the input is dropped after the first call, the intermediate after the second. -/
example : lifetimePass [.call 0 true [.input "x"] [] (.node 0) [0], .call 1 true [.node 0, .const 7] [] (.node 1) [0], .ret [.node 1]] =
    [.call 0 true [.input "x"] [] (.node 0) [0], .delete [.input "x"],
     .call 1 true [.node 0, .const 7] [] (.node 1) [0], .delete [.node 0, .const 7], .ret [.node 1]] := by decide

end FF.Orch
