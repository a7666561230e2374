import Verif.Orch.OffloadRun
import Verif.Orch.OffloadCases

/-! # Offloading (C23) -/

namespace FF.Orch

variable {V W : Type}

/-! ### Specification -/

def Instr.isMove : Instr → Bool
  | .moveModule .. => true
  | .moveAct .. => true
  | _ => false

/-- The moves of a program left out. -/
def withoutMoves (is : List Instr) : List Instr := is.filter fun i => !i.isMove

/-- The module that the first instruction of a program runs, if it runs one. -/
def FirstRuns (is : List Instr) (m : ℕ) : Prop := ∃ i rest, is = i :: rest ∧ i.module? = some m

/-- What is computed is used later or returned. -/
def NoDeadCalls (is : List Instr) : Prop :=
  ∀ p q m im args kwargs t cs, is = p ++ .call m im args kwargs t cs :: q → (∃ outs, .ret outs ∈ is ∧ t ∈ outs) ∨ ∃ j ∈ q, t ∈ j.uses

/-- Values with their devices forgotten. -/
def eraseArgs (args : List (RawInput (Placed V))) : List (RawInput V) := args.map (RawInput.map Prod.fst)

def eraseKwargs (kwargs : List (String × RawInput (Placed V))) : List (String × RawInput V) := kwargs.map fun p => (p.1, p.2.map Prod.fst)

/-! ### Lemmas: only moves are added -/

theorem withoutMoves_append (a b : List Instr) : withoutMoves (a ++ b) = withoutMoves a ++ withoutMoves b := List.filter_append ..

theorem withoutMoves_moves {l : List Instr} (h : ∀ i ∈ l, i.isMove = true) : withoutMoves l = [] := by
  unfold withoutMoves
  rw [List.filter_eq_nil_iff]
  intro i hi
  simp [h i hi]

theorem withoutMoves_acts (comp : Dev) (i : Instr) : withoutMoves (actsBefore comp i) = [] := by
  apply withoutMoves_moves
  intro x hx
  unfold actsBefore at hx
  obtain ⟨r, _, rfl⟩ := List.mem_map.1 hx
  rfl

theorem withoutMoves_block (comp stor : Dev) (i : Instr) (h : i.isMove = false) : withoutMoves (block comp stor i) = [i] := by
  have hw : withoutMoves (wrapActivations comp stor i) = [i] := by
    cases i with
    | moveModule t m => simp [Instr.isMove] at h
    | moveAct d r => simp [Instr.isMove] at h
    | call m im args kwargs t cs =>
      simp only [wrapActivations, withoutMoves_append, withoutMoves_acts]
      rfl
    | optimize m args kwargs d =>
      simp only [wrapActivations, withoutMoves_append, withoutMoves_acts]
      rfl
    | _ => rfl
  cases hm : i.module? with
  | none => rw [block_none hm, hw]
  | some m =>
    rw [block_some hm, ← List.singleton_append, withoutMoves_append, withoutMoves_append, hw]
    rfl

theorem withoutMoves_insert (comp stor : Dev) (mods : List ℕ) (place : Placement) (is : List Instr) (h : ∀ i ∈ is, i.isMove = false) :
    withoutMoves (insertMoves comp stor mods place is) = is := by
  rw [insertMoves_eq, withoutMoves_append, withoutMoves_append]
  have h1 : withoutMoves (preOffload stor mods) = [] := by
    apply withoutMoves_moves
    intro i hi
    unfold preOffload at hi
    obtain ⟨m, _, rfl⟩ := List.mem_map.1 hi
    rfl
  have h2 : withoutMoves (postRestore mods place) = [] := by
    apply withoutMoves_moves
    intro i hi
    unfold postRestore at hi
    obtain ⟨m, _, rfl⟩ := List.mem_map.1 hi
    rfl
  rw [h1, h2]
  simp only [List.nil_append, List.append_nil]
  induction is with
  | nil => rfl
  | cons i is ih =>
    rw [List.flatMap_cons, withoutMoves_append, withoutMoves_block comp stor i (h i (by simp)), ih fun j hj => h j (by simp [hj])]
    rfl

theorem withoutMoves_cancel (comp stor : Dev) (is : List Instr) : withoutMoves (cancelRoundTrips comp stor is) = withoutMoves is := by
  induction is using cancelRoundTrips.induct (comp := comp) (stor := stor) with
  | case1 => rfl
  | case2 a => rfl
  | case3 a b rest h ih =>
    rw [cancelRoundTrips, if_pos h, ih]
    have : a.isMove = true ∧ b.isMove = true := by
      cases a with
      | moveModule t m =>
        refine ⟨rfl, ?_⟩
        cases t with
        | map l => simp [isRoundTrip] at h
        | dev d => cases b <;> first | rfl | simp [isRoundTrip] at h
      | _ => simp [isRoundTrip] at h
    simp [withoutMoves, this.1, this.2]
  | case4 a b rest h ih =>
    rw [cancelRoundTrips, if_neg h]
    have e : ∀ l, withoutMoves (a :: l) = withoutMoves [a] ++ withoutMoves l := fun l => by rw [← withoutMoves_append]; rfl
    rw [e, ih, ← e]

theorem withoutMoves_flush (b : MoveBuffer) (rs : List Ref) : withoutMoves (rs.foldl MoveBuffer.flush b).result = withoutMoves b.result := by
  induction rs generalizing b with
  | nil => rfl
  | cons r rs ih =>
    rw [List.foldl_cons, ih]
    unfold MoveBuffer.flush
    split
    · rfl
    · dsimp only
      split_ifs
      · rfl
      · rw [withoutMoves_append]
        simp [withoutMoves, Instr.isMove]

theorem withoutMoves_step (comp : Dev) (b : MoveBuffer) (i : Instr) :
    withoutMoves (b.step comp i).result = withoutMoves b.result ++ withoutMoves [i] := by
  have hinfer : ∀ (b : MoveBuffer) i, (b.infer comp i).result = b.result := by
    intro b i
    unfold MoveBuffer.infer
    split
    · rfl
    · split <;> rfl
    · rfl
  unfold MoveBuffer.step
  split
  · simp [withoutMoves, Instr.isMove]
  · dsimp only
    rw [hinfer]
    simp only
    rw [withoutMoves_append, withoutMoves_flush]

theorem withoutMoves_cancelActs (comp : Dev) (is : List Instr) : withoutMoves (cancelActivationMoves comp is) = withoutMoves is := by
  have key : ∀ (l : List Instr) (b : MoveBuffer), withoutMoves (l.foldl (MoveBuffer.step comp) b).result = withoutMoves b.result ++ withoutMoves l := by
    intro l
    induction l with
    | nil => intro b; simp [withoutMoves]
    | cons i l ih =>
      intro b
      rw [List.foldl_cons, ih, withoutMoves_step, List.append_assoc, ← withoutMoves_append]
      rfl
  unfold cancelActivationMoves
  simp only
  rw [withoutMoves_append, key, withoutMoves_moves (l := List.map _ _)]
  · simp [withoutMoves]
  · intro i hi
    obtain ⟨p, _, rfl⟩ := List.mem_map.1 hi
    rfl

theorem contexts_withoutMoves (is : List Instr) : programContexts (withoutMoves is) = programContexts is := by
  unfold programContexts withoutMoves
  generalize ([] : List Ctx) = acc
  induction is generalizing acc with
  | nil => rfl
  | cons i is ih =>
    cases hm : i.isMove with
    | false =>
      rw [List.filter_cons_of_pos (by simp [hm]), List.foldl_cons, List.foldl_cons, ih]
    | true =>
      rw [List.filter_cons_of_neg (by simp [hm]), List.foldl_cons, ih]
      have : i.ctxs = [] := by cases i <;> first | rfl | simp [Instr.isMove] at hm
      rw [this]
      rfl

theorem unplaced_not_move {i : Instr} (h : i.Unplaced) : i.isMove = false := by
  cases i <;> first | rfl | exact absurd h id

/-! ### Lemmas: the shape of the program -/

theorem blocks_moves {comp stor : Dev} {l E : List Instr} (h : ∀ i ∈ l, i.isModuleMove = true) (hE : Blocks comp stor E) : Blocks comp stor (l ++ E) := by
  induction l with
  | nil => exact hE
  | cons i l ih =>
    refine .plain i _ ?_ (ih fun j hj => h j (by simp [hj]))
    have := h i (by simp)
    cases i <;> simp_all [Instr.isModuleMove, Instr.Plain]

/-- Calls and optimizations use no parts of values. -/
def NoParts (is : List Instr) : Prop :=
  ∀ i ∈ is, (∃ m im args kwargs t cs, i = .call m im args kwargs t cs) ∨ (∃ m args kwargs d, i = .optimize m args kwargs d) →
    ∀ r ∈ i.uses, r.unwrap = r

theorem blocks_body {comp stor : Dev} {is : List Instr} (hi : ∀ i ∈ is, i.Unplaced) (hp : NoParts is) {E : List Instr} (hE : Blocks comp stor E) :
    Blocks comp stor (is.flatMap (block comp stor) ++ E) := by
  induction is with
  | nil => exact hE
  | cons i is ih =>
    have ih := ih (fun j hj => hi j (by simp [hj])) (fun j hj => hp j (by simp [hj]))
    have hun := hp i (by simp)
    have hi := hi i (by simp)
    rw [List.flatMap_cons, List.append_assoc]
    generalize is.flatMap (block comp stor) ++ E = R at ih
    have hmv : ∀ m, Blocks comp stor (.moveModule (.dev stor) m :: R) := fun m => .plain _ _ trivial ih
    cases i with
    | moveModule t m => exact absurd hi id
    | moveAct d r => exact absurd hi id
    | store t cs => exact .plain _ _ hi ih
    | load s t a => exact .plain _ _ hi ih
    | ret outs => exact .plain _ _ trivial ih
    | delete ts => exact .plain _ _ trivial ih
    | call m im args kwargs t cs =>
      obtain ⟨id, rfl⟩ := hi
      have hun := hun (Or.inl ⟨m, im, args, kwargs, _, cs, rfl⟩)
      cases im with
      | false =>
        have := Blocks.call (comp := comp) m false args kwargs id cs R hun ih
        rw [block_none rfl]
        simpa [wrapActivations] using this
      | true =>
        have := Blocks.call (comp := comp) m true args kwargs id cs _ hun (hmv m)
        rw [block_some (m := m) rfl]
        refine .plain _ _ trivial ?_
        simpa [wrapActivations] using this
    | optimize m args kwargs d =>
      have hun := hun (Or.inr ⟨m, args, kwargs, d, rfl⟩)
      have := Blocks.optimize (comp := comp) m args kwargs d _ hun (hmv m)
      rw [block_some (m := m) rfl]
      refine .plain _ _ trivial ?_
      simpa [wrapActivations] using this

theorem blocks_insert {comp stor : Dev} {mods : List ℕ} {place : Placement} {is : List Instr} (hi : ∀ i ∈ is, i.Unplaced) (hp : NoParts is) :
    Blocks comp stor (insertMoves comp stor mods place is) := by
  rw [insertMoves_eq]
  apply blocks_moves
  · intro i h
    unfold preOffload at h
    obtain ⟨m, _, rfl⟩ := List.mem_map.1 h
    rfl
  · apply blocks_body hi hp
    rw [← List.append_nil (postRestore mods place)]
    apply blocks_moves _ .nil
    intro i h
    unfold postRestore at h
    obtain ⟨m, _, rfl⟩ := List.mem_map.1 h
    rfl

theorem blocks_tail {comp stor : Dev} {b : Instr} {rest : List Instr} (hb : b.isModuleMove = true) (h : Blocks comp stor (b :: rest)) :
    Blocks comp stor rest := by
  generalize hE : b :: rest = E at h
  cases h with
  | nil => simp at hE
  | plain i E' hi h => simp only [List.cons.injEq] at hE; rw [hE.2]; exact h
  | call m im args kwargs id cs E' hun h =>
    exfalso
    have hall := (wrapActivations_passive (comp := comp) (stor := stor) (i := .call m im args kwargs (.node id) cs) ⟨id, rfl⟩).1
    have : b ∈ wrapActivations comp stor (.call m im args kwargs (.node id) cs) := by
      simp only [wrapActivations]
      cases ha : actsBefore comp (.call m im args kwargs (.node id) cs) with
      | nil => rw [ha] at hE; simp only [List.nil_append, List.cons.injEq] at hE; simp [hE.1]
      | cons x xs => rw [ha] at hE; simp only [List.cons_append, List.cons.injEq] at hE; simp [hE.1]
    rw [hall b this] at hb
    simp at hb
  | optimize m args kwargs d E' hun h =>
    exfalso
    have hall := (wrapActivations_passive (comp := comp) (stor := stor) (i := .optimize m args kwargs d) trivial).1
    have : b ∈ wrapActivations comp stor (.optimize m args kwargs d) := by
      simp only [wrapActivations]
      cases ha : actsBefore comp (.optimize m args kwargs d) with
      | nil => rw [ha] at hE; simp only [List.nil_append, List.cons.injEq] at hE; simp [hE.1]
      | cons x xs => rw [ha] at hE; simp only [List.cons_append, List.cons.injEq] at hE; simp [hE.1]
    rw [hall b this] at hb
    simp at hb

theorem roundTrip_moves {comp stor : Dev} {a b : Instr} (h : isRoundTrip comp stor a b = true) : a.isModuleMove = true ∧ b.isModuleMove = true := by
  constructor
  · by_contra hc; rw [isRoundTrip_left (by simpa using hc)] at h; simp at h
  · by_contra hc; rw [isRoundTrip_right (by simpa using hc)] at h; simp at h

theorem blocks_cancel {comp stor : Dev} (n : ℕ) : ∀ E : List Instr, E.length ≤ n → Blocks comp stor E → Blocks comp stor (cancelRoundTrips comp stor E) := by
  induction n with
  | zero =>
    intro E hl h
    have : E = [] := List.length_eq_zero_iff.1 (by omega)
    subst this
    exact .nil
  | succ n ih =>
    intro E hl h
    cases h with
    | nil => exact .nil
    | plain i E hi h =>
      cases E with
      | nil => exact .plain i [] hi .nil
      | cons b rest =>
        rw [cancelRoundTrips]
        split_ifs with hrt
        · exact ih rest (by simp at hl; omega) (blocks_tail (roundTrip_moves hrt).2 h)
        · exact .plain i _ hi (ih _ (by simp at hl ⊢; omega) h)
    | call m im args kwargs id cs E hun h =>
      have hpass := (wrapActivations_passive (comp := comp) (stor := stor) (i := .call m im args kwargs (.node id) cs) ⟨id, rfl⟩).1
      have := cancel_pass (comp := comp) (stor := stor) _ hpass E
      simp only [wrapActivations, List.append_assoc, List.cons_append, List.nil_append] at this
      rw [this]
      refine .call m im args kwargs id cs _ hun (ih E ?_ h)
      simp at hl
      omega
    | optimize m args kwargs d E hun h =>
      have hpass := (wrapActivations_passive (comp := comp) (stor := stor) (i := .optimize m args kwargs d) trivial).1
      have := cancel_pass (comp := comp) (stor := stor) _ hpass E
      simp only [wrapActivations, List.append_assoc, List.cons_append, List.nil_append] at this
      rw [this]
      refine .optimize m args kwargs d _ hun (ih E ?_ h)
      simp at hl
      omega

theorem targets_withoutMoves (is : List Instr) : targets (withoutMoves is) = targets is := by
  unfold targets withoutMoves
  induction is with
  | nil => rfl
  | cons i is ih =>
    cases hm : i.isMove with
    | false => rw [List.filter_cons_of_pos (by simp [hm]), List.flatMap_cons, List.flatMap_cons, ih]
    | true =>
      rw [List.filter_cons_of_neg (by simp [hm]), List.flatMap_cons, ih]
      have : i.target? = [] := by cases i <;> first | rfl | simp [Instr.isMove] at hm
      rw [this]
      rfl

theorem kept_moveModule {U : Ref → Prop} {t : MoveTo} {m : ℕ} {E : List Instr} : Kept U (.moveModule t m :: E) ↔ Kept U E := by
  simp [Kept, Instr.pends, Instr.uses]

theorem kept_moduleMoves {U : Ref → Prop} {l E : List Instr} (h : ∀ i ∈ l, i.isModuleMove = true) : Kept U (l ++ E) ↔ Kept U E := by
  induction l with
  | nil => rfl
  | cons i l ih =>
    have := h i (by simp)
    cases i with
    | moveModule t m => rw [List.cons_append, kept_moveModule, ih fun j hj => h j (by simp [hj])]
    | _ => simp [Instr.isModuleMove] at this

theorem kept_block {comp stor : Dev} {U : Ref → Prop} {i : Instr} (hi : i.Unplaced) {is R : List Instr} (hR : ∀ U, Kept U is → Kept U R)
    (h : Kept U (i :: is)) : Kept U (block comp stor i ++ R) := by
  have hacts : ∀ E, Kept (fun r => r ∈ i.uses.filter (fun r => !r.constBase) ∨ U r) E → Kept U (actsBefore comp i ++ E) :=
    fun E hE => (kept_acts comp _).2 hE
  have hnext : ∀ r, (r ∈ i.pends ∨ ((r ∈ i.uses.filter (fun r => !r.constBase) ∨ U r) ∧ r ∉ i.uses)) → r ∈ i.pends ∨ (U r ∧ r ∉ i.uses) := by
    rintro r (hr | ⟨hr | hr, hr'⟩)
    · exact Or.inl hr
    · exact absurd (List.mem_filter.1 hr).1 hr'
    · exact Or.inr ⟨hr, hr'⟩
  cases i with
  | moveModule t m => exact absurd hi id
  | moveAct d r => exact absurd hi id
  | store t cs => exact ⟨h.1, hR _ h.2⟩
  | load s t a => exact ⟨h.1, hR _ h.2⟩
  | ret outs => exact ⟨h.1, hR _ h.2⟩
  | delete ts => exact ⟨h.1, hR _ h.2⟩
  | optimize m args kwargs d =>
    rw [block_some (m := m) rfl, List.cons_append, kept_moveModule]
    simp only [wrapActivations, List.append_assoc, List.cons_append, List.nil_append]
    refine hacts _ ⟨by simp, ?_⟩
    rw [kept_moveModule]
    exact (hR _ h.2).mono hnext
  | call m im args kwargs t cs =>
    have hbody : ∀ E, (∀ U, Kept U is → Kept U E) → Kept U (actsBefore comp (.call m im args kwargs t cs) ++
        (.call m im args kwargs t cs :: .moveAct stor t :: E)) := by
      intro E hE
      refine hacts _ ⟨by simp, by simp, ?_⟩
      refine (hE _ h.2).mono ?_
      rintro r (hr | ⟨hr, _⟩)
      · left; simpa [Instr.pends] using hr
      · exact hnext r hr
    cases im with
    | false =>
      rw [block_none rfl]
      simp only [wrapActivations, List.append_assoc, List.cons_append, List.nil_append]
      exact hbody R hR
    | true =>
      rw [block_some (m := m) rfl, List.cons_append, kept_moveModule]
      simp only [wrapActivations, List.append_assoc, List.cons_append, List.nil_append]
      exact hbody _ fun U hU => kept_moveModule.2 (hR U hU)

theorem kept_insert {comp stor : Dev} {mods : List ℕ} {place : Placement} {U : Ref → Prop} {is : List Instr} (hi : ∀ i ∈ is, i.Unplaced)
    (h : Kept U is) : Kept U (insertMoves comp stor mods place is) := by
  rw [insertMoves_eq, kept_moduleMoves (l := preOffload stor mods)]
  · have key : ∀ is : List Instr, (∀ i ∈ is, i.Unplaced) → ∀ U, Kept U is → Kept U (is.flatMap (block comp stor) ++ postRestore mods place) := by
      intro is
      induction is with
      | nil =>
        intro _ U _
        rw [List.flatMap_nil, List.nil_append, ← List.append_nil (postRestore mods place), kept_moduleMoves]
        · trivial
        · intro i h
          unfold postRestore at h
          obtain ⟨m, _, rfl⟩ := List.mem_map.1 h
          rfl
      | cons i is ih =>
        intro hi U hU
        rw [List.flatMap_cons, List.append_assoc]
        exact kept_block (hi i (by simp)) (ih fun j hj => hi j (by simp [hj])) hU
    exact key is hi U h
  · intro i h
    unfold preOffload at h
    obtain ⟨m, _, rfl⟩ := List.mem_map.1 h
    rfl

theorem kept_cancel {comp stor : Dev} (is : List Instr) : ∀ U, Kept U is → Kept U (cancelRoundTrips comp stor is) := by
  induction is using cancelRoundTrips.induct (comp := comp) (stor := stor) with
  | case1 => intro U h; exact h
  | case2 a => intro U h; exact h
  | case3 a b rest hrt ih =>
    intro U h
    rw [cancelRoundTrips, if_pos hrt]
    apply ih
    obtain ⟨h1, h2⟩ := roundTrip_moves hrt
    have : a :: b :: rest = [a, b] ++ rest := rfl
    rw [this, kept_moduleMoves] at h
    · exact h
    · intro i hi
      simp only [List.mem_cons, List.not_mem_nil, or_false] at hi
      rcases hi with rfl | rfl
      · exact h1
      · exact h2
  | case4 a b rest hrt ih =>
    intro U h
    rw [cancelRoundTrips, if_neg hrt]
    exact ⟨h.1, ih _ h.2⟩

/-! ### Lemmas: the register at the beginning -/

theorem prepare_ok {names : List String} {args : List (RawInput V)} {kwargs : List (String × RawInput V)} {cs : List Ctx} {reg : Reg V}
    (h : prepareRegister names args kwargs cs = .ok reg) :
    ∀ r s, reg r = some s → (∃ n, r = .input n) ∧ ∀ p ∈ s, p.2 ≠ Cell.constObj := by
  unfold prepareRegister at h
  cases hb : bindInputs names args kwargs with
  | error e => rw [hb] at h; simp at h
  | ok b =>
    rw [hb] at h
    simp only [Except.ok.injEq] at h
    subst h
    have inner : ∀ (n : String) (d : List V) (cs : List Ctx) (reg : Reg V),
        (∀ r s, reg r = some s → (∃ n, r = .input n) ∧ ∀ p ∈ s, p.2 ≠ Cell.constObj) →
        ∀ r s, cs.foldl (fun reg c => reg.store (.input n) c (.data d)) reg r = some s → (∃ n, r = .input n) ∧ ∀ p ∈ s, p.2 ≠ Cell.constObj := by
      intro n d cs
      induction cs with
      | nil => intro reg h; exact h
      | cons c cs ih =>
        intro reg h
        apply ih
        intro r s hs
        unfold Reg.store at hs
        beta_reduce at hs
        by_cases hr : r = .input n
        · rw [if_pos hr] at hs
          refine ⟨⟨n, hr⟩, ?_⟩
          obtain rfl := Option.some.inj hs
          rintro ⟨c', x⟩ hp
          rcases mem_set hp with hp | hp
          · simp only [Prod.mk.injEq] at hp; rw [hp.2]; simp
          · cases hreg : reg (.input n) with
            | none => rw [hreg] at hp; simp at hp
            | some s0 => rw [hreg] at hp; exact (h _ s0 hreg).2 _ hp
        · rw [if_neg hr] at hs
          exact h r s hs
    have outer : ∀ (l : List (String × RawInput V)) (reg : Reg V),
        (∀ r s, reg r = some s → (∃ n, r = .input n) ∧ ∀ p ∈ s, p.2 ≠ Cell.constObj) →
        ∀ r s, l.foldl (fun reg p => cs.foldl (fun reg c => reg.store (.input p.1) c (.data p.2.dataset)) reg) reg r = some s →
          (∃ n, r = .input n) ∧ ∀ p ∈ s, p.2 ≠ Cell.constObj := by
      intro l
      induction l with
      | nil => intro reg h; exact h
      | cons p l ih =>
        intro reg h
        exact ih _ (inner p.1 p.2.dataset cs reg h)
    exact outer b (fun _ => none) (by simp)

theorem prepare_regOk {names : List String} {args : List (RawInput V)} {kwargs : List (String × RawInput V)} {cs : List Ctx} {reg : Reg V}
    (h : prepareRegister names args kwargs cs = .ok reg) : RegOk reg ∧ ∀ id, reg (.node id) = none := by
  have hp := prepare_ok h
  refine ⟨⟨?_, fun r _ s hs => (hp r s hs).2, ?_⟩, ?_⟩
  · intro k s hs
    obtain ⟨⟨n, hn⟩, _⟩ := hp _ s hs
    simp at hn
  · intro r hc _
    cases hr : reg r with
    | none => rfl
    | some s =>
      obtain ⟨⟨n, rfl⟩, _⟩ := hp r s hr
      simp [Ref.constBase, Ref.unwrap] at hc
  · intro id
    cases hr : reg (.node id) with
    | none => rfl
    | some s =>
      obtain ⟨⟨n, hn⟩, _⟩ := hp _ s hr
      simp at hn

theorem prepare_sim {names : List String} {args : List (RawInput (Placed V))} {kwargs : List (String × RawInput (Placed V))} {cs : List Ctx}
    {reg : Reg V} (h : prepareRegister names (eraseArgs args) (eraseKwargs kwargs) cs = .ok reg) :
    ∃ reg', prepareRegister names args kwargs cs = .ok reg' ∧ reg = rmap Prod.fst reg' := by
  unfold eraseArgs eraseKwargs at h
  rw [prepareRegister_map] at h
  cases hp : prepareRegister names args kwargs cs with
  | error e => rw [hp] at h; simp [Except.map] at h
  | ok reg' =>
    rw [hp] at h
    simp only [Except.map, Except.ok.injEq] at h
    exact ⟨reg', rfl, h.symm⟩

/-! ### Lemmas: deletions -/

theorem kept_lifetime {is : List Instr} (hi : ∀ i ∈ is, i.Unplaced) (hnd : ∀ ts, Instr.delete ts ∉ is) (hl : NoDeadCalls is) :
    Kept (fun _ => False) (lifetimePass is) := by
  rw [lifetimePass_eq]
  have key : ∀ (l p : List Instr) (off : ℕ) (U : Ref → Prop), is = p ++ l → (∀ r, U r → ∃ id, r = .node id) → Kept U (lifeFrom (keepAlive is) off l) := by
    intro l
    induction l with
    | nil => intro p off U _ _; trivial
    | cons i l ih =>
      intro p off U hp hU
      obtain ⟨d, hd, hdm⟩ := lifeFrom_cons (keepAlive is) off i l
      have himem : i ∈ is := by rw [hp]; simp
      have hiu := hi i himem
      have hnode : ∀ r, r ∈ i.pends ∨ (U r ∧ r ∉ i.uses) → ∃ id, r = .node id := by
        rintro r (hr | hr)
        · cases i with
          | call m im args kwargs t cs =>
            simp only [Instr.pends, List.mem_singleton] at hr
            obtain ⟨id, ht⟩ := hiu
            exact ⟨id, by rw [hr, ht]⟩
          | moveAct d r => exact absurd hiu id
          | _ => simp [Instr.pends] at hr
        · exact hU r hr.1
      have htail : ∀ U', (∀ r, U' r → ∃ id, r = .node id) → Kept U' (lifeFrom (keepAlive is) (off + 1) l) :=
        fun U' hU' => ih (p ++ [i]) (off + 1) U' (by rw [hp]; simp) hU'
      rw [hd, List.cons_append]
      refine ⟨fun ts hts => absurd (hts ▸ himem) (hnd ts), ?_⟩
      by_cases hdn : d = []
      · rw [if_pos hdn, List.nil_append]
        exact htail _ hnode
      · rw [if_neg hdn, List.singleton_append]
        refine ⟨?_, ?_⟩
        · intro ts hts t ht hbad
          simp only [Instr.delete.injEq] at hts
          subst hts
          obtain ⟨h1, h2, h3⟩ := (hdm t).1 ht
          -- a call's result is used later or returned
          have hcall : ∀ m im args kwargs cs, i = .call m im args kwargs t cs → False := by
            intro m im args kwargs cs he
            rcases hl p l m im args kwargs t cs (by rw [hp, he]) with ⟨outs, ho, hto⟩ | ⟨j, hj, htj⟩
            · apply h3
              unfold keepAlive
              rw [List.mem_flatMap]
              exact ⟨.ret outs, ho, hto⟩
            · apply h2
              unfold touched
              rw [List.mem_flatMap]
              exact ⟨j, hj, by simp [Instr.touches, htj]⟩
          rcases hbad with hb | ⟨hb1, hb2⟩
          · cases i with
            | call m im args kwargs t' cs =>
              simp only [Instr.pends, List.mem_singleton] at hb
              subst hb
              exact hcall m im args kwargs cs rfl
            | moveAct d r => exact absurd hiu id
            | _ => simp [Instr.pends] at hb
          · simp only [Instr.touches, List.mem_append, hb2, false_or] at h1
            cases i with
            | call m im args kwargs t' cs =>
              simp only [Instr.produces, List.mem_singleton] at h1
              subst h1
              exact hcall m im args kwargs cs rfl
            | load s t' a =>
              simp only [Instr.produces, List.mem_singleton] at h1
              obtain ⟨id, hid⟩ := hU t hb1
              have hiu : t' = .attr s a := hiu
              rw [h1, hiu] at hid
              simp at hid
            | _ => simp [Instr.produces] at h1
        · refine htail _ ?_
          rintro r (hr | hr)
          · simp [Instr.pends] at hr
          · exact hnode r hr.1
  exact key is [] 0 _ rfl (by simp)

/-! ### Lemmas: scheduled graphs -/

theorem scheduleRef_unplaced (r : Ref) : ∀ i ∈ scheduleRef r, i.Unplaced := by
  induction r with
  | node id => simp [scheduleRef]
  | input x => simp [scheduleRef]
  | const k => intro i hi; simp only [scheduleRef, List.mem_singleton] at hi; subst hi; exact ⟨k, rfl⟩
  | attr r a ih =>
    intro i hi
    simp only [scheduleRef, List.mem_append, List.mem_singleton] at hi
    rcases hi with hi | rfl
    · exact ih i hi
    · rfl

theorem scheduleRef_quiet (r : Ref) : ∀ i ∈ scheduleRef r, i.target? = [] ∧ i.isOptimize = false ∧ ∀ ts, i ≠ .delete ts := by
  induction r with
  | node id => simp [scheduleRef]
  | input x => simp [scheduleRef]
  | const k => intro i hi; simp only [scheduleRef, List.mem_singleton] at hi; subst hi; simp [Instr.target?, Instr.isOptimize]
  | attr r a ih =>
    intro i hi
    simp only [scheduleRef, List.mem_append, List.mem_singleton] at hi
    rcases hi with hi | rfl
    · exact ih i hi
    · simp [Instr.target?, Instr.isOptimize]

/-- What the scheduler emits: references, or the two instructions of a node. -/
theorem schedule_cases {g : Graph} {order : List ℕ} {i : Instr} (hi : i ∈ schedule g order) :
    (∃ r, i ∈ scheduleRef r) ∨ (∃ outs, i = .ret outs) ∨ ∃ id ∈ order, ∃ n, g.find? id = some n ∧
      ((n.isModule = true ∧ ∃ d, n.delegate = some d ∧ i = .optimize n.target n.args n.kwargs d) ∨
        i = .call n.target n.isModule n.args n.kwargs (.node n.id) (propagateContexts g order n.id)) := by
  simp only [schedule, List.mem_append, List.mem_flatMap] at hi
  rcases hi with ⟨n, hn, hi⟩ | hi
  · obtain ⟨id, hid, hf⟩ := List.mem_filterMap.1 hn
    simp only [scheduleNode, List.mem_append, List.mem_flatMap, List.mem_singleton] at hi
    rcases hi with ((⟨r, _, hi⟩ | ⟨r, _, hi⟩) | hi) | hi
    · exact Or.inl ⟨r, hi⟩
    · exact Or.inl ⟨r, hi⟩
    · split at hi
      · rename_i d hd hm
        simp only [List.mem_singleton] at hi
        exact Or.inr (Or.inr ⟨id, hid, n, hf, Or.inl ⟨hm, d, hd, hi⟩⟩)
      · simp at hi
    · exact Or.inr (Or.inr ⟨id, hid, n, hf, Or.inr hi⟩)
  · split_ifs at hi with ho
    · simp at hi
    · simp only [List.mem_append, List.mem_flatMap, List.mem_singleton] at hi
      rcases hi with ⟨r, _, hi⟩ | hi
      · exact Or.inl ⟨r, hi⟩
      · exact Or.inr (Or.inl ⟨_, hi⟩)

theorem schedule_unplaced {g : Graph} {order : List ℕ} : ∀ i ∈ schedule g order, i.Unplaced := by
  intro i hi
  rcases schedule_cases hi with ⟨r, hr⟩ | ⟨outs, rfl⟩ | ⟨id, _, n, _, ⟨_, d, _, rfl⟩ | rfl⟩
  · exact scheduleRef_unplaced r i hr
  · trivial
  · trivial
  · exact ⟨n.id, rfl⟩

theorem schedule_targets (g : Graph) (order : List ℕ) : targets (schedule g order) = (order.filterMap g.find?).map fun n => Ref.node n.id := by
  have hz : ∀ l : List Ref, targets (l.flatMap scheduleRef) = [] := by
    intro l
    unfold targets
    rw [List.flatMap_eq_nil_iff]
    intro i hi
    obtain ⟨r, _, hr⟩ := List.mem_flatMap.1 hi
    exact (scheduleRef_quiet r i hr).1
  have happ : ∀ a b, targets (a ++ b) = targets a ++ targets b := fun a b => List.flatMap_append
  have hnode : ∀ n, targets (scheduleNode (propagateContexts g order) n) = [Ref.node n.id] := by
    intro n
    unfold scheduleNode
    rw [happ, happ, happ, hz, hz]
    split <;> rfl
  unfold schedule
  rw [happ]
  have hlast : targets (if g.outputs.isEmpty then [] else g.outputs.flatMap scheduleRef ++ [.ret g.outputs]) = [] := by
    split_ifs
    · rfl
    · rw [happ, hz]; rfl
  rw [hlast, List.append_nil]
  induction order.filterMap g.find? with
  | nil => rfl
  | cons n l ih => rw [List.flatMap_cons, happ, ih, hnode]; rfl

theorem schedule_targets_nodup {g : Graph} {order : List ℕ} (h : order.Nodup) : (targets (schedule g order)).Nodup := by
  rw [schedule_targets]
  have hids : ((order.filterMap g.find?).map (·.id)).Sublist order := by
    induction order with
    | nil => simp
    | cons id rest ih =>
      have ih := ih (List.nodup_cons.1 h).2
      rw [List.filterMap_cons]
      split
      · exact ih.cons _
      · rename_i n hn
        rw [List.map_cons, (mem_of_find hn).2]
        exact ih.cons_cons _
  have := (hids.nodup h).map (f := Ref.node) (fun a b hab => by simpa using hab)
  rwa [List.map_map] at this

theorem opt_sublist (is : List Instr) : ((is.foldr optStep ([], [])).1).Sublist is := by
  induction is with
  | nil => simp
  | cons i is ih =>
    rw [List.foldr_cons]
    rcases optStep_cases i (is.foldr optStep ([], [])) with ⟨e, _⟩ | ⟨e, _⟩
    · rw [e]; exact ih.cons_cons _
    · rw [e]; exact ih.cons _

theorem targets_sublist {a b : List Instr} (h : a.Sublist b) : (targets a).Sublist (targets b) := by
  induction h with
  | slnil => exact List.Sublist.refl _
  | cons i _ ih => unfold targets at *; rw [List.flatMap_cons]; exact ih.trans (List.sublist_append_right _ _)
  | cons_cons i _ ih => unfold targets at *; rw [List.flatMap_cons, List.flatMap_cons]; exact (List.Sublist.refl _).append ih

/-- The instructions of a program with deletions are its own and deletions. -/
theorem lifetime_mem {is : List Instr} : ∀ i ∈ lifetimePass is, i ∈ is ∨ ∃ ts, i = .delete ts := by
  rw [lifetimePass_eq]
  generalize keepAlive is = keep
  generalize 0 = off
  induction is generalizing off with
  | nil => simp [lifeFrom]
  | cons i is ih =>
    obtain ⟨d, hd, _⟩ := lifeFrom_cons keep off i is
    rw [hd]
    intro j hj
    rcases List.mem_append.1 hj with hj | hj
    · rcases List.mem_cons.1 hj with rfl | hj
      · simp
      · split_ifs at hj
        · simp at hj
        · exact Or.inr ⟨d, by simpa using hj⟩
    · rcases ih _ j hj with h | h
      · simp [h]
      · exact Or.inr h

theorem lifetime_targets (is : List Instr) : targets (lifetimePass is) = targets is := by
  rw [lifetimePass_eq]
  generalize keepAlive is = keep
  generalize 0 = off
  induction is generalizing off with
  | nil => simp [lifeFrom]
  | cons i is ih =>
    obtain ⟨d, hd, _⟩ := lifeFrom_cons keep off i is
    rw [hd]
    have happ : ∀ a b, targets (a ++ b) = targets a ++ targets b := fun a b => List.flatMap_append
    rw [happ, ih]
    have : targets (i :: if d = [] then [] else [Instr.delete d]) = i.target? := by split_ifs <;> simp [targets, Instr.target?]
    rw [this]
    rfl

theorem lifetime_firstRuns {is : List Instr} {m : ℕ} (h : FirstRuns (lifetimePass is) m) : FirstRuns is m := by
  obtain ⟨i, rest, he, hm⟩ := h
  rw [lifetimePass_eq] at he
  cases is with
  | nil => simp [lifeFrom] at he
  | cons j is =>
    obtain ⟨d, hd, _⟩ := lifeFrom_cons (keepAlive (j :: is)) 0 j is
    rw [hd, List.cons_append] at he
    simp only [List.cons.injEq] at he
    exact ⟨j, is, rfl, by rw [he.1]; exact hm⟩

/-! ### Properties -/

/-- **C23.** Offloading adds moves and nothing else: without the moves, the program is the same, instruction for instruction. -/
theorem offload_only_adds_moves (comp stor : Dev) (mods : List ℕ) (place : Placement) (is : List Instr) (h : ∀ i ∈ is, i.isMove = false) :
    withoutMoves (offload comp stor mods place is) = is := by
  unfold offload
  rw [withoutMoves_cancelActs, withoutMoves_cancel, withoutMoves_insert comp stor mods place is h]

theorem offload_contexts (comp stor : Dev) (mods : List ℕ) (place : Placement) (is : List Instr) (h : ∀ i ∈ is, i.isMove = false) :
    programContexts (offload comp stor mods place is) = programContexts is := by
  rw [← contexts_withoutMoves, offload_only_adds_moves comp stor mods place is h]

/-- **C23 (partial).** The moves that are inserted are sufficient: a program that succeeds without devices succeeds with them, although
functions, modules and delegates then require everything to be on the compute device; it returns the same values and changes the modules
in the same way, and if it does not return early every parameter is back on its device. This holds for programs that use parts of values,
too. Missing: the removal of redundant moves, for which see `offload_same_results_partial`. -/
theorem insert_moves_same_results_partial (sem : Sem V W) (comp stor : Dev) (names : List String) (mods : List ℕ) (place : Placement)
    (is : List Instr) (w w' : W) (args : List (RawInput (Placed V))) (kwargs : List (String × RawInput (Placed V))) (out : Option (Out V))
    (hi : ∀ i ∈ is, i.Unplaced) (hl : ∀ i ∈ is, i.Live mods place) (hn : ∀ m ∈ mods, ((place m).map (·.1)).Nodup)
    (h : runProgram sem names is w (eraseArgs args) (eraseKwargs kwargs) = (w', .ok out)) :
    ∃ place' out', runProgram (placed comp sem) names (insertMoves comp stor mods place is) (w, place) args kwargs =
      ((w', place'), .ok out') ∧ out'.map (omap Prod.fst) = out ∧ (out = none → place' = place) := by
  have hc : programContexts (insertMoves comp stor mods place is) = programContexts is := by
    rw [← contexts_withoutMoves, withoutMoves_insert comp stor mods place is fun i h => unplaced_not_move (hi i h)]
  unfold runProgram at h ⊢
  rw [hc]
  cases hp : prepareRegister names (eraseArgs args) (eraseKwargs kwargs) (programContexts is) with
  | error e => rw [hp] at h; simp at h
  | ok reg =>
    rw [hp] at h
    simp only [Prod.mk.injEq] at h
    obtain ⟨reg', h1, h2⟩ := prepare_sim hp
    rw [h1]
    simp only
    obtain ⟨uf', o', h3, h4, h5, h6⟩ := raw_run comp stor is hi hl hn (u := ⟨w, reg⟩) (uf := (run sem is ⟨w, reg⟩).1)
      (u' := ⟨(w, place), reg'⟩) ⟨rfl, h2⟩ (prepare_regOk hp).1 rfl (o := out) (by rw [← h.2])
    rw [h3]
    refine ⟨uf'.w.2, o', ?_, h5, h6⟩
    rw [← h.1, ← h4]

/-- **C23 (partial).** A program that succeeds without offloading succeeds with it, returns the same values and changes the modules in the
same way; if it does not return early, every parameter is back on its device. Missing: programs in which calls use parts of values
(`parts_overwrite_each_other`, `part_extracted_again_not_moved`), programs that begin with the module that is moved to storage last
(`first_module_left_behind`), and restoring the devices if something is returned (`modules_not_restored`). -/
theorem offload_same_results_partial (sem : Sem V W) (comp stor : Dev) (names : List String) (mods : List ℕ) (place : Placement)
    (is : List Instr) (w w' : W) (args : List (RawInput (Placed V))) (kwargs : List (String × RawInput (Placed V))) (out : Option (Out V))
    (hi : ∀ i ∈ is, i.Unplaced) (hl : ∀ i ∈ is, i.Live mods place) (hn : ∀ m ∈ mods, ((place m).map (·.1)).Nodup) (hm : mods.Nodup)
    (hparts : NoParts is) (hfirst : ∀ m, mods.getLast? = some m → FirstRuns is m → ∀ p ∈ place m, p.2 = comp) (ht : (targets is).Nodup)
    (hk : Kept (fun _ => False) is)
    (h : runProgram sem names is w (eraseArgs args) (eraseKwargs kwargs) = (w', .ok out)) :
    ∃ place' out', runProgram (placed comp sem) names (offload comp stor mods place is) (w, place) args kwargs =
      ((w', place'), .ok out') ∧ out'.map (omap Prod.fst) = out ∧ (out = none → place' = place) := by
  have hmv : ∀ i ∈ is, i.isMove = false := fun i h => unplaced_not_move (hi i h)
  unfold runProgram at h ⊢
  rw [offload_contexts comp stor mods place is hmv]
  cases hp : prepareRegister names (eraseArgs args) (eraseKwargs kwargs) (programContexts is) with
  | error e => rw [hp] at h; simp at h
  | ok reg =>
    rw [hp] at h
    simp only [Prod.mk.injEq] at h
    obtain ⟨reg', h1, h2⟩ := prepare_sim hp
    rw [h1]
    simp only
    obtain ⟨uf', o', h3, h4, h5, h6⟩ := raw_run comp stor is hi hl hn (u := ⟨w, reg⟩) (uf := (run sem is ⟨w, reg⟩).1)
      (u' := ⟨(w, place), reg'⟩) ⟨rfl, h2⟩ (prepare_regOk hp).1 rfl (o := out) (by rw [← h.2])
    rw [← cancel_insert comp stor sem mods place is hi hm _ (fun m i is' hlast his him => hfirst m hlast ⟨i, is', his, him⟩)] at h3
    have hE := blocks_cancel (comp := comp) (stor := stor) _ _ le_rfl (blocks_insert (mods := mods) (place := place) hi hparts)
    have hK := kept_cancel (comp := comp) (stor := stor) _ _ (kept_insert (comp := comp) (stor := stor) (mods := mods) (place := place) hi hk)
    have htE : targets (cancelRoundTrips comp stor (insertMoves comp stor mods place is)) = targets is := by
      rw [← targets_withoutMoves, withoutMoves_cancel, withoutMoves_insert comp stor mods place is hmv]
    obtain ⟨vf, g1, g2⟩ := cancel_run (sem := sem) hE (v0 := ⟨(w, place), reg'⟩) {} ⟨(w, place), reg'⟩ ⟨(w, place), reg'⟩ uf' (fun _ => False) o' rfl
      ⟨rfl, by simp [Dict.get], fun _ _ => rfl, by simp [Dict.get], by simp [Dict.keys]⟩ (by simp [Dict.get]) hK (by rw [htE]; exact ht)
      (by
        rw [htE]
        intro t htm
        unfold targets at htm
        rw [List.mem_flatMap] at htm
        obtain ⟨i, hin, hti⟩ := htm
        have hiu := hi i hin
        cases i with
        | call m im args kwargs t' cs =>
          simp only [Instr.target?, List.mem_singleton] at hti
          obtain ⟨id, rfl⟩ := hiu
          subst hti
          refine ⟨⟨id, rfl⟩, ?_, by simp [Dict.get]⟩
          exact (prepare_regOk h1).2 id
        | _ => simp [Instr.target?] at hti) h3
    have hoff : offload comp stor mods place is =
        finish ((cancelRoundTrips comp stor (insertMoves comp stor mods place is)).foldl (MoveBuffer.step comp) {}) := rfl
    rw [hoff, g1]
    refine ⟨uf'.w.2, o', ?_, h5, h6⟩
    simp only
    rw [g2, ← h.1, ← h4]

/-- **C23 (partial).** Optimizing a graph with offloading does what it does without: if the run without devices succeeds, so does the
run with them, although functions, modules and delegates then require everything to be on the compute device. Modules and delegates'
effects are the same, and afterwards every parameter is back on the device it was on. Missing: graphs in which a node uses a part of a
value (`parts_overwrite_each_other`, `part_extracted_again_not_moved`), and graphs in which the first instruction runs the module that is
moved to storage last, unless it was on the compute device (`first_module_left_behind`). -/
theorem optimize_offloaded_partial (sem : Sem V W) (g : Graph) (order : List ℕ) (comp stor : Dev) (place : Placement) (w w' : W)
    (args : List (RawInput (Placed V))) (kwargs : List (String × RawInput (Placed V))) (out : Option (Out V))
    (hu : g.UniqueIds) (hv : ValidOrder g order) (hlive : ∀ n ∈ g.leafIds, ∃ c, Needed g c n)
    (ho : HasOptimization (schedule g order)) (hd : ∀ n ∈ g.nodes, ∀ d, n.delegate = some d → d.contexts ≠ [])
    (hparts : ∀ n ∈ g.nodes, ∀ r ∈ n.allArgs, r.unwrap = r)
    (hfun : ∀ n ∈ g.nodes, n.isModule = false → place n.target = [])
    (hnames : ∀ m ∈ g.modules, ((place m).map (·.1)).Nodup)
    (hfirst : ∀ m, g.modules.getLast? = some m → FirstRuns (optimizationOnly (schedule g order)) m → ∀ p ∈ place m, p.2 = comp)
    (h : runOptimizations sem g order w (eraseArgs args) (eraseKwargs kwargs) = (w', .ok out)) :
    runOffloaded sem g order comp stor w place args kwargs = ((w', place), .ok none) := by
  have hsub : (optimizationOnly (schedule g order)).Sublist (schedule g order) := by rw [optimizationOnly_eq ho]; exact opt_sublist _
  have hnd : order.Nodup := (hv.1.nodup_iff).2 (by
    unfold Graph.leafIds Graph.leaves
    exact (List.filter_sublist.map _).nodup hu)
  have hmin := fun p q i => optimization_only_minimal (schedule g order) p q i ho
  have hmodule : ∀ id n, g.find? id = some n → n.isModule = true → n.target ∈ g.modules := by
    intro id n hf hm
    unfold Graph.modules
    rw [mem_dedupe]
    exact ⟨List.mem_map.2 ⟨n, List.mem_filter.2 ⟨(mem_of_find hf).1, hm⟩, rfl⟩, by simp⟩
  -- the retained instructions
  set is := optimizationOnly (schedule g order) with his
  have hunp : ∀ i ∈ is, i.Unplaced := fun i hi => schedule_unplaced i (hsub.subset hi)
  have hnoret : ∀ outs, Instr.ret outs ∉ is := by
    intro outs hr
    obtain ⟨p, q, hpq⟩ := List.append_of_mem hr
    rcases hmin p q _ hpq with ⟨_, _, _, _, h⟩ | ⟨r, hr, _⟩
    · simp at h
    · simp [Instr.produces] at hr
  have hcase : ∀ i ∈ is, (∃ r, i ∈ scheduleRef r) ∨ ∃ id ∈ order, ∃ n, g.find? id = some n ∧
      ((n.isModule = true ∧ ∃ d, n.delegate = some d ∧ i = .optimize n.target n.args n.kwargs d) ∨
        i = .call n.target n.isModule n.args n.kwargs (.node n.id) (propagateContexts g order n.id)) := by
    intro i hi
    rcases schedule_cases (hsub.subset hi) with h | ⟨outs, rfl⟩ | h
    · exact Or.inl h
    · exact absurd hi (hnoret outs)
    · exact Or.inr h
  have hlives : ∀ i ∈ is, i.Live g.modules place := by
    intro i hi
    rcases hcase i hi with ⟨r, hr⟩ | ⟨id, hid, n, hf, ⟨hm, d, hdel, rfl⟩ | rfl⟩
    · have h1 := (scheduleRef_quiet r i hr)
      cases i with
      | call m im args kwargs t cs => simp [Instr.target?] at h1
      | optimize m args kwargs d => simp [Instr.isOptimize] at h1
      | _ => trivial
    · exact ⟨hd n (mem_of_find hf).1 d hdel, hmodule id n hf hm⟩
    · refine ⟨?_, hmodule id n hf, fun hm => hfun n (mem_of_find hf).1 hm⟩
      obtain ⟨c, hc⟩ := hlive id (hv.1.mem_iff.1 hid)
      rw [(mem_of_find hf).2]
      exact List.ne_nil_of_mem ((contexts_exact g hu order hv c id).2 hc)
  have hno : NoParts is := by
    intro i hi hkind r hr
    rcases hcase i hi with ⟨r', hr'⟩ | ⟨id, hid, n, hf, ⟨hm, d, hdel, rfl⟩ | rfl⟩
    · have h1 := (scheduleRef_quiet r' i hr')
      rcases hkind with ⟨m, im, args, kwargs, t, cs, rfl⟩ | ⟨m, args, kwargs, d, rfl⟩
      · simp [Instr.target?] at h1
      · simp [Instr.isOptimize] at h1
    · exact hparts n (mem_of_find hf).1 r (by simpa [Instr.uses, Node.allArgs] using hr)
    · exact hparts n (mem_of_find hf).1 r (by simpa [Instr.uses, Node.allArgs] using hr)
  have hnodel : ∀ ts, Instr.delete ts ∉ is := by
    intro ts hts
    rcases hcase _ hts with ⟨r, hr⟩ | ⟨id, hid, n, hf, ⟨hm, d, hdel, h⟩ | h⟩
    · exact (scheduleRef_quiet r _ hr).2.2 ts rfl
    · simp at h
    · simp at h
  have hdead : NoDeadCalls is := by
    intro p q m im args kwargs t cs hpq
    rcases hmin p q _ hpq with ⟨_, _, _, _, h⟩ | ⟨r, hr, hj⟩
    · simp at h
    · simp only [Instr.produces, List.mem_singleton] at hr
      subst hr
      exact Or.inr hj
  -- with deletions
  have hmem := lifetime_mem (is := is)
  have h1 : ∀ i ∈ lifetimePass is, i.Unplaced := fun i hi => (hmem i hi).elim (hunp i) fun ⟨ts, ht⟩ => by rw [ht]; trivial
  have h2 : ∀ i ∈ lifetimePass is, i.Live g.modules place := fun i hi => (hmem i hi).elim (hlives i) fun ⟨ts, ht⟩ => by rw [ht]; trivial
  have h3 : NoParts (lifetimePass is) := by
    intro i hi hkind
    rcases hmem i hi with hi | ⟨ts, rfl⟩
    · exact hno i hi hkind
    · rcases hkind with ⟨_, _, _, _, _, _, h⟩ | ⟨_, _, _, _, h⟩ <;> simp at h
  have hrun : out = none := by
    unfold runOptimizations runProgram at h
    rw [← his] at h
    cases hp : prepareRegister g.inputs (eraseArgs args) (eraseKwargs kwargs) (programContexts (lifetimePass is)) with
    | error e => rw [hp] at h; simp at h
    | ok reg =>
      rw [hp] at h
      simp only [Prod.mk.injEq] at h
      cases out with
      | none => rfl
      | some o =>
      exfalso
      refine run_noret sem (lifetimePass is) ?_ ⟨w, reg⟩ (run sem (lifetimePass is) ⟨w, reg⟩).1 o (by rw [← h.2])
      intro outs hr
      rcases hmem _ hr with hr | ⟨ts, hr⟩
      · exact hnoret outs hr
      · simp at hr
  obtain ⟨place', out', g1, g2, g3⟩ := offload_same_results_partial sem comp stor g.inputs g.modules place (lifetimePass is) w w' args kwargs out h1 h2 hnames
    (dedupe_nodup _ _) h3 (fun m hm hf => hfirst m hm (lifetime_firstRuns hf))
    (by rw [lifetime_targets]; exact (targets_sublist hsub).nodup (schedule_targets_nodup hnd)) (kept_lifetime hunp hnodel hdead) h
  rw [g3 hrun] at g1
  rw [hrun, Option.map_eq_none_iff] at g2
  rw [g2] at g1
  exact g1

/-! ### Concrete cases -/

/-- Two modules with delegates, and a module that uses the results of both. -/
def offloadable : Graph where
  nodes := [
    { id := 0, name := "a", target := 1, isModule := true, args := [.input "x"], kwargs := [], delegate := some ⟨3, [0]⟩ },
    { id := 1, name := "b", target := 2, isModule := true, args := [.node 0], kwargs := [("y", .input "x")], delegate := some ⟨3, [0, 4]⟩ },
    { id := 2, name := "c", target := 0, isModule := true, args := [.node 0, .node 1], kwargs := [] }]
  inputs := ["x"]
  outputs := [.node 2]

def offloadablePlace : Placement := fun m => if m = 0 ∨ m = 1 ∨ m = 2 then [("weight", 0), ("bias", 0)] else []

theorem offloadable_order : ValidOrder offloadable [0, 1, 2] := topological_sort_valid offloadable (by decide) [0, 1, 2] (by decide)

theorem offloadable_live : ∀ n ∈ offloadable.leafIds, ∃ c, Needed offloadable c n := by
  intro n hn
  have : n ∈ [0, 1, 2] := offloadable_order.1.mem_iff.2 hn
  have h : propagateContexts offloadable [0, 1, 2] n ≠ [] := by revert n; decide
  obtain ⟨c, hc⟩ := List.exists_mem_of_ne_nil _ h
  exact ⟨c, (contexts_exact offloadable (by decide) _ offloadable_order c n).1 hc⟩

/-- `optimize_offloaded_partial` applies to this graph, with all modules on device 0 and device 1 for computing. -/
example : runOffloaded toySem offloadable [0, 1, 2] 1 0 7 offloadablePlace [.batches [([1], some 0), ([2], none)]] [] =
    ((763, offloadablePlace), .ok none) := by
  refine optimize_offloaded_partial toySem offloadable [0, 1, 2] 1 0 offloadablePlace 7 763 _ _ none (by decide) offloadable_order
    offloadable_live ((hasOptimization_iff _).1 (by decide)) (by decide) (by decide) (by decide) (by decide) ?_ (by decide)
  rintro m hm ⟨i, rest, he, hi⟩
  have h1 : m = 0 := by
    have : offloadable.modules.getLast? = some 0 := by decide
    rw [this] at hm
    exact (Option.some.inj hm).symm
  have h2 : ((optimizationOnly (schedule offloadable [0, 1, 2])).head?.bind Instr.module?) = some 1 := by decide
  rw [he] at h2
  simp only [List.head?_cons, Option.bind_some, hi, Option.some.injEq] at h2
  omega

/-- The program: modules start in storage, each is on the compute device while it is used, and `x` and the first result, which are used
by the second delegate on the compute device, are not moved back and forth. -/
example : offload 1 0 offloadable.modules offloadablePlace (lifetimePass (optimizationOnly (schedule offloadable [0, 1, 2]))) =
    [.moveModule (.dev 0) 1, .moveModule (.dev 0) 2, .moveModule (.dev 0) 0,
     .moveModule (.dev 1) 1, .moveAct 1 (.input "x"), .optimize 1 [.input "x"] [] ⟨3, [0]⟩,
     .call 1 true [.input "x"] [] (.node 0) [0, 4], .moveModule (.dev 0) 1,
     .moveModule (.dev 1) 2, .optimize 2 [.node 0] [("y", .input "x")] ⟨3, [0, 4]⟩, .moveModule (.dev 0) 2,
     .delete [.node 0, .input "x"],
     .moveModule (.map [("weight", 0), ("bias", 0)]) 1, .moveModule (.map [("weight", 0), ("bias", 0)]) 2,
     .moveModule (.map [("weight", 0), ("bias", 0)]) 0] := by
  decide

/-- A program with a part of a value that meets the hypotheses of `insert_moves_same_results_partial`. -/
example : (∀ i ∈ lifetimePass (optimizationOnly (schedule twoParts [0, 1])), i.Live twoParts.modules onZero) ∧
    (∀ m ∈ twoParts.modules, ((onZero m).map (·.1)).Nodup) ∧
    (runOptimizations toySem twoParts [0, 1] 7 [.single [1, 2]] []).2 = .ok none := by
  refine ⟨?_, by decide, by decide⟩
  have : lifetimePass (optimizationOnly (schedule twoParts [0, 1])) =
      [.call 2 true [.input "x"] [] (.node 0) [0], .delete [.input "x"], .load (.node 0) (.attr (.node 0) (.idx 0)) (.idx 0),
       .load (.node 0) (.attr (.node 0) (.idx 1)) (.idx 1), .delete [.node 0],
       .optimize 1 [.attr (.node 0) (.idx 0), .attr (.node 0) (.idx 1)] [] ⟨3, [0]⟩,
       .delete [.attr (.node 0) (.idx 0), .attr (.node 0) (.idx 1)]] := by decide
  rw [this]
  simp [Instr.Live, show twoParts.modules = [2, 1] from by decide]

end FF.Orch
