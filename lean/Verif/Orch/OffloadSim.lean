import Verif.Orch.Offload
import Verif.Orch.Natural
import Verif.Orch.OptOnlyProps

/-! # Execution with devices follows execution without -/

namespace FF.Orch

variable {V W : Type}

/-- The placed state is the plain state with devices added. -/
structure Sim (u : St V W) (u' : St (Placed V) (W × Placement)) : Prop where
  w : u'.w.1 = u.w
  reg : u.reg = rmap Prod.fst u'.reg

def CellOn (d : Dev) : Cell (Placed V) → Prop
  | .data vs => ∀ v ∈ vs, onDev d v.2
  | .constObj => True

def EntryOn (d : Dev) (o : Option (Streams (Placed V))) : Prop := ∀ s, o = some s → ∀ p ∈ s, CellOn d p.2

/-- Only references to constants hold constants; nothing is ever extracted from a constant. -/
structure RegOk (reg : Reg V) : Prop where
  consts : ConstEntries reg
  data : ∀ r, r.NotConst → ∀ s, reg r = some s → ∀ p ∈ s, p.2 ≠ Cell.constObj
  attrs : ∀ r, r.constBase = true → r.NotConst → reg r = none

/-- The instructions of a program before offloading. -/
def Instr.Unplaced : Instr → Prop
  | .store t _ => ∃ k, t = .const k
  | .load s t a => t = .attr s a
  | .call _ _ _ _ t _ => ∃ id, t = .node id
  | .optimize .. => True
  | .ret _ => True
  | .delete _ => True
  | .moveModule .. => False
  | .moveAct .. => False

/-! ### Invariants of the plain run -/

theorem regOk_exec {sem : Sem V W} {i : Instr} (hi : i.Unplaced) {s s1 : St V W} {o : Option (Out V)} (h : RegOk s.reg)
    (he : exec sem i s = .ok (s1, o)) : RegOk s1.reg := by
  cases i with
  | store t cs =>
    obtain ⟨k, rfl⟩ := hi
    simp only [exec, Except.ok.injEq, Prod.mk.injEq] at he
    obtain ⟨rfl, rfl⟩ := he
    have hother := (store_contexts cs s.reg (.const k) (.constObj : Cell V)).1
    refine ⟨exec_constEntries (sem := sem) (i := .store (.const k) cs) ⟨k, rfl⟩ h.consts rfl, ?_, ?_⟩
    · intro r hr s' hs'
      simp only at hs'
      rw [hother r (hr k)] at hs'
      exact h.data r hr s' hs'
    · intro r hc hr
      simp only
      rw [hother r (hr k)]
      exact h.attrs r hc hr
  | load src t a =>
    subst hi
    simp only [exec] at he
    cases hs : s.reg src with
    | none => rw [hs] at he; simp at he
    | some str =>
      rw [hs] at he
      simp only at he
      cases hl : loadAll sem a (.attr src a) str s.reg with
      | error e => rw [hl] at he; simp at he
      | ok reg1 =>
        have hcb : src.constBase = false := by
          by_contra hcb
          have hcb : src.constBase = true := by simpa using hcb
          by_cases hn : src.NotConst
          · rw [h.attrs src hcb hn] at hs; simp at hs
          · unfold Ref.NotConst at hn
            push Not at hn
            obtain ⟨k, rfl⟩ := hn
            obtain ⟨h1, h2⟩ := h.consts k str hs
            cases str with
            | nil => exact h1 rfl
            | cons p rest =>
              obtain ⟨c, x⟩ := p
              have : x = .constObj := h2 (c, x) (by simp)
              subst this
              simp [loadAll] at hl
        rw [hl] at he
        simp only [Except.ok.injEq, Prod.mk.injEq] at he
        obtain ⟨rfl, rfl⟩ := he
        obtain ⟨m, hm, rfl⟩ := loadAll_ok hl
        have hmd : ∀ p ∈ m, p.2 ≠ Cell.constObj := by
          intro p hp
          obtain ⟨q, _, hq⟩ : ∃ q ∈ str, ∃ d d', q.2 = Cell.data d ∧ sem.extract a d = some d' ∧ p = (q.1, .data d') := by
            clear hl hs
            induction hm with
            | nil => simp at hp
            | @cons a b _ _ h _ ih =>
              rcases List.mem_cons.1 hp with rfl | hp
              · exact ⟨a, by simp, h⟩
              · obtain ⟨q, hq, h⟩ := ih hp
                exact ⟨q, by simp [hq], h⟩
          obtain ⟨d, d', _, _, rfl⟩ := hq
          simp
        refine ⟨?_, ?_, ?_⟩
        · intro k s' hs'
          simp only at hs'
          rw [foldl_store, if_neg (by simp)] at hs'
          exact h.consts k s' hs'
        · intro r hr s' hs'
          simp only at hs'
          rw [foldl_store] at hs'
          by_cases hrt : r = .attr src a
          · subst hrt
            rw [if_pos rfl] at hs'
            by_cases hmn : m = []
            · rw [if_pos hmn] at hs'; exact h.data _ hr s' hs'
            · rw [if_neg hmn] at hs'
              obtain rfl := Option.some.inj hs'
              rintro ⟨c, x⟩ hp
              rcases mem_setAll hp with hp | hp
              · exact hmd _ hp
              · cases hr' : s.reg (.attr src a) with
                | none => rw [hr'] at hp; simp at hp
                | some s0 => rw [hr'] at hp; exact h.data _ hr s0 hr' _ hp
          · rw [if_neg hrt] at hs'; exact h.data r hr s' hs'
        · intro r hc hr
          simp only
          rw [foldl_store]
          by_cases hrt : r = .attr src a
          · subst hrt
            have : Ref.constBase (.attr src a) = src.constBase := rfl
            rw [this, hcb] at hc
            simp at hc
          · rw [if_neg hrt]; exact h.attrs r hc hr
  | call m im args kwargs t cs =>
    obtain ⟨id, rfl⟩ := hi
    simp only [exec] at he
    cases hc : callAll sem s m args kwargs cs with
    | error e => rw [hc] at he; simp at he
    | ok res =>
      rw [hc] at he
      simp only [Except.ok.injEq, Prod.mk.injEq] at he
      obtain ⟨rfl, rfl⟩ := he
      have hres : ∀ p ∈ res, p.2 ≠ Cell.constObj := by
        clear h
        induction cs generalizing res with
        | nil => simp only [callAll, Except.ok.injEq] at hc; subst hc; simp
        | cons c cs ih =>
          simp only [callAll, bind, Except.bind] at hc
          cases h1 : callOne sem s m args kwargs c with
          | error e => rw [h1] at hc; simp at hc
          | ok d =>
            rw [h1] at hc
            simp only at hc
            cases h2 : callAll sem s m args kwargs cs with
            | error e => rw [h2] at hc; simp at hc
            | ok rest =>
              rw [h2] at hc
              simp only [Except.ok.injEq] at hc
              subst hc
              intro p hp
              rcases List.mem_cons.1 hp with rfl | hp
              · simp
              · exact ih rest h2 p hp
      refine ⟨?_, ?_, ?_⟩
      · intro k s' hs'
        simp only [Reg.storeAll, reduceCtorEq, if_false] at hs'
        exact h.consts k s' hs'
      · intro r hr s' hs'
        simp only [Reg.storeAll] at hs'
        by_cases hrt : r = .node id
        · subst hrt
          rw [if_pos rfl] at hs'
          obtain rfl := Option.some.inj hs'
          rintro ⟨c, x⟩ hp
          rcases mem_setAll hp with hp | hp
          · exact hres _ hp
          · cases hr' : s.reg (.node id) with
            | none => rw [hr'] at hp; simp at hp
            | some s0 => rw [hr'] at hp; exact h.data _ hr s0 hr' _ hp
        · rw [if_neg hrt] at hs'; exact h.data r hr s' hs'
      · intro r hcb hr
        simp only [Reg.storeAll]
        by_cases hrt : r = .node id
        · subst hrt; simp [Ref.constBase, Ref.unwrap] at hcb
        · rw [if_neg hrt]; exact h.attrs r hcb hr
  | optimize m args kwargs d =>
    simp only [exec] at he
    split at he
    · simp at he
    · split at he
      · simp at he
      · simp only [Except.ok.injEq, Prod.mk.injEq] at he
        obtain ⟨rfl, rfl⟩ := he
        exact h
  | ret outs =>
    simp only [exec] at he
    split at he
    · simp at he
    · simp only [Except.ok.injEq, Prod.mk.injEq] at he
      obtain ⟨rfl, rfl⟩ := he
      exact h
  | delete ts =>
    simp only [exec, Except.ok.injEq, Prod.mk.injEq] at he
    obtain ⟨rfl, rfl⟩ := he
    refine ⟨?_, ?_, ?_⟩
    · intro k s' hs'
      simp only at hs'
      rw [foldl_delete] at hs'
      split_ifs at hs'
      exact h.consts k s' hs'
    · intro r hr s' hs'
      simp only at hs'
      rw [foldl_delete] at hs'
      split_ifs at hs'
      exact h.data r hr s' hs'
    · intro r hc hr
      simp only
      rw [foldl_delete]
      split_ifs
      · rfl
      · exact h.attrs r hc hr
  | moveModule dst m => exact absurd hi id
  | moveAct d r => exact absurd hi id

/-! ### Naturality of the other instructions -/

theorem extract_placed (comp : Dev) (sem : Sem V W) (a : Attr) (d : List (Placed V)) :
    sem.extract a (d.map Prod.fst) = ((placed comp sem).extract a d).map (List.map Prod.fst) := by
  have h1 : ∀ a, (d.map Prod.fst).mapM (fun v => sem.item v a) = (d.mapM fun v => (placed comp sem).item v a).map (List.map Prod.fst) := by
    intro a
    rw [List.mapM_map, ← mapM_option_map]
    congr 1
    funext v
    simp only [Function.comp, placed, Option.map_map]
    cases sem.item v.1 a <;> rfl
  have h2 : ∀ k, (d.map Prod.fst).mapM (fun v => sem.getattr v k) = (d.mapM fun v => (placed comp sem).getattr v k).map (List.map Prod.fst) := by
    intro k
    rw [List.mapM_map, ← mapM_option_map]
    congr 1
    funext v
    simp only [Function.comp, placed, Option.map_map]
    cases sem.getattr v.1 k <;> rfl
  unfold Sem.extract
  cases a with
  | idx n => exact h1 _
  | key k =>
    simp only
    rw [h1]
    cases d.mapM fun v => (placed comp sem).item v (.key k) with
    | some r => rfl
    | none => exact h2 k

theorem loadAll_placed (comp : Dev) (sem : Sem V W) (a : Attr) (t : Ref) (s : Streams (Placed V)) (reg : Reg (Placed V)) :
    loadAll sem a t (smap Prod.fst s) (rmap Prod.fst reg) = (loadAll (placed comp sem) a t s reg).map (rmap Prod.fst) := by
  induction s generalizing reg with
  | nil => rfl
  | cons p s ih =>
    obtain ⟨c, x⟩ := p
    cases x with
    | constObj => rfl
    | data d =>
      have : smap Prod.fst ((c, Cell.data d) :: s) = (c, .data (d.map Prod.fst)) :: smap Prod.fst s := rfl
      rw [this]
      simp only [loadAll]
      rw [extract_placed comp]
      cases (placed comp sem).extract a d with
      | none => rfl
      | some d' =>
        simp only [Option.map_some]
        rw [← ih, rmap_store]
        rfl

/-- Instructions that neither call nor move. -/
def Instr.passive : Instr → Bool
  | .store .. => true
  | .load .. => true
  | .ret _ => true
  | .delete _ => true
  | _ => false

theorem exec_passive (comp : Dev) {sem : Sem V W} {i : Instr} (hp : i.passive = true) {u u1 : St V W}
    {u' : St (Placed V) (W × Placement)} (h : Sim u u') {o : Option (Out V)} (he : exec sem i u = .ok (u1, o)) :
    ∃ u1' o', exec (placed comp sem) i u' = .ok (u1', o') ∧ Sim u1 u1' ∧ u1'.w = u'.w ∧ o'.map (omap Prod.fst) = o := by
  obtain ⟨hw, hr⟩ := h
  cases i with
  | store t cs =>
    simp only [exec, Except.ok.injEq, Prod.mk.injEq] at he
    obtain ⟨rfl, rfl⟩ := he
    exact ⟨_, none, rfl, ⟨hw, by rw [hr, rmap_storeContexts]; rfl⟩, rfl, rfl⟩
  | load src t a =>
    simp only [exec] at he ⊢
    rw [hr] at he
    unfold rmap at he
    cases hs : u'.reg src with
    | none => rw [hs] at he; simp at he
    | some str =>
      rw [hs] at he
      simp only [Option.map_some] at he
      have hl := loadAll_placed comp sem a t str u'.reg
      unfold rmap at hl
      rw [hl] at he
      cases hl' : loadAll (placed comp sem) a t str u'.reg with
      | error e => rw [hl'] at he; simp [Except.map] at he
      | ok reg1 =>
        rw [hl'] at he
        simp only [Except.map, Except.ok.injEq, Prod.mk.injEq] at he
        obtain ⟨rfl, rfl⟩ := he
        simp only
        rw [hl']
        exact ⟨⟨u'.w, reg1⟩, none, rfl, ⟨hw, rfl⟩, rfl, rfl⟩
  | ret outs =>
    simp only [exec] at he ⊢
    rw [hr, returnOutputs_map] at he
    cases ho : returnOutputs u'.reg outs with
    | error e => rw [ho] at he; simp [Except.map] at he
    | ok out =>
      rw [ho] at he
      simp only [Except.map, Except.ok.injEq, Prod.mk.injEq] at he
      obtain ⟨rfl, rfl⟩ := he
      exact ⟨u', some out, rfl, ⟨hw, hr⟩, rfl, rfl⟩
  | delete ts =>
    simp only [exec, Except.ok.injEq, Prod.mk.injEq] at he
    obtain ⟨rfl, rfl⟩ := he
    exact ⟨_, none, rfl, ⟨hw, by rw [hr, rmap_deleteAll]⟩, rfl, rfl⟩
  | call m im args kwargs t cs => simp [Instr.passive] at hp
  | optimize m args kwargs d => simp [Instr.passive] at hp
  | moveModule dst m => simp [Instr.passive] at hp
  | moveAct d r => simp [Instr.passive] at hp

/-! ### Moves -/

def Cell.onto (d : Dev) : Cell (Placed V) → Cell (Placed V)
  | .data vs => .data (vs.map fun v => (v.1, v.2.map fun _ => d))
  | .constObj => .constObj

def movedStreams (d : Dev) (s : Streams (Placed V)) : Streams (Placed V) := List.map (fun p => (p.1, p.2.onto d)) s

theorem moveStreams_placed (comp : Dev) (sem : Sem V W) (d : Dev) (s : Streams (Placed V)) (h : ∀ p ∈ s, p.2 ≠ Cell.constObj) :
    moveStreams (placed comp sem) d s = .ok (movedStreams d s) := by
  unfold movedStreams
  induction s with
  | nil => rfl
  | cons p s ih =>
    obtain ⟨c, x⟩ := p
    cases x with
    | constObj => exact absurd rfl (h (c, .constObj) (by simp))
    | data vs =>
      simp only [moveStreams, bind, Except.bind, ih fun p hp => h p (by simp [hp])]
      rfl

theorem moved_fst (d : Dev) (s : Streams (Placed V)) : smap Prod.fst (movedStreams d s) = smap Prod.fst s := by
  unfold smap movedStreams
  rw [List.map_map]
  apply List.map_congr_left
  rintro ⟨c, x⟩ _
  cases x with
  | constObj => rfl
  | data vs =>
    simp only [Function.comp, Cell.onto, Cell.map, List.map_map]
    rfl

theorem moved_on (d : Dev) (s : Streams (Placed V)) : EntryOn d (some (movedStreams d s)) := by
  intro s' hs' p hp
  obtain rfl := Option.some.inj hs'
  unfold movedStreams at hp
  obtain ⟨⟨c, x⟩, _, rfl⟩ := List.mem_map.1 hp
  cases x with
  | constObj => trivial
  | data vs =>
    intro v hv
    obtain ⟨v0, _, rfl⟩ := List.mem_map.1 hv
    unfold onDev
    cases v0.2 with
    | none => left; rfl
    | some d' => right; rfl

theorem onto_of_on {d : Dev} {x : Cell (Placed V)} (h : CellOn d x) : x.onto d = x := by
  cases x with
  | constObj => rfl
  | data vs =>
    simp only [Cell.onto, Cell.data.injEq]
    conv => rhs; rw [← List.map_id vs]
    apply List.map_congr_left
    intro v hv
    obtain ⟨a, t⟩ := v
    rcases h _ hv with h | h
    · simp only at h; subst h; rfl
    · simp only at h; subst h; rfl

theorem moved_of_on {d : Dev} {s : Streams (Placed V)} (h : EntryOn d (some s)) : movedStreams d s = s := by
  unfold movedStreams
  conv => rhs; rw [← List.map_id s]
  apply List.map_congr_left
  intro p hp
  rw [onto_of_on (h s rfl p hp)]
  rfl

theorem moved_moved (d d' : Dev) (s : Streams (Placed V)) : movedStreams d (movedStreams d' s) = movedStreams d s := by
  unfold movedStreams
  rw [List.map_map]
  apply List.map_congr_left
  rintro ⟨c, x⟩ _
  cases x with
  | constObj => rfl
  | data vs =>
    simp only [Function.comp, Cell.onto, List.map_map, Prod.mk.injEq, true_and, Cell.data.injEq]
    apply List.map_congr_left
    rintro ⟨a, t⟩ _
    cases t <;> rfl

theorem exec_moveAct (comp : Dev) (sem : Sem V W) (d : Dev) (r : Ref) (u' : St (Placed V) (W × Placement)) (s : Streams (Placed V))
    (hs : u'.reg r = some s) (hd : ∀ p ∈ s, p.2 ≠ Cell.constObj) :
    exec (placed comp sem) (.moveAct d r) u' = .ok (⟨u'.w, fun r' => if r' = r then some (movedStreams d s) else u'.reg r'⟩, none) := by
  simp only [exec, hs, moveStreams_placed comp sem d s hd]

theorem sim_moved {u : St V W} {u' : St (Placed V) (W × Placement)} (h : Sim u u') {r : Ref} {s : Streams (Placed V)} (d : Dev)
    (hs : u'.reg r = some s) : Sim u ⟨u'.w, fun r' => if r' = r then some (movedStreams d s) else u'.reg r'⟩ := by
  refine ⟨h.w, ?_⟩
  rw [h.reg]
  funext r'
  unfold rmap
  by_cases hr : r' = r
  · subst hr
    simp only [if_true, hs, Option.map_some, moved_fst]
  · simp only [hr, if_false]

theorem smap_const {s : Streams (Placed V)} (h : ∀ p ∈ smap Prod.fst s, p.2 ≠ (Cell.constObj : Cell V)) : ∀ p ∈ s, p.2 ≠ Cell.constObj := by
  rintro ⟨c, x⟩ hp hx
  simp only at hx
  subst hx
  exact h (c, .constObj) (List.mem_map.2 ⟨_, hp, rfl⟩) rfl

/-- A sequence of moves of available entries. -/
theorem acts_sim (comp : Dev) (sem : Sem V W) (d : Dev) (rs : List Ref) {u : St V W} {u' : St (Placed V) (W × Placement)} (h : Sim u u')
    (hok : RegOk u.reg) (hrs : ∀ r ∈ rs, r.NotConst ∧ (u.reg r).isSome) :
    ∃ u1', reaches (placed comp sem) (rs.map fun r => .moveAct d r) u' = some u1' ∧ Sim u u1' ∧ u1'.w = u'.w ∧
      (∀ r ∈ rs, EntryOn d (u1'.reg r)) ∧ ∀ r, EntryOn d (u'.reg r) → EntryOn d (u1'.reg r) := by
  induction rs generalizing u' with
  | nil => exact ⟨u', rfl, h, rfl, by simp, fun _ h => h⟩
  | cons r rs ih =>
    obtain ⟨hn, hsome⟩ := hrs r (by simp)
    have hreg : u.reg r = (u'.reg r).map (smap Prod.fst) := by rw [h.reg]; rfl
    cases hs : u'.reg r with
    | none => rw [hreg, hs] at hsome; simp at hsome
    | some s =>
      have hd : ∀ p ∈ s, p.2 ≠ Cell.constObj := by
        apply smap_const
        exact hok.data r hn _ (by rw [hreg, hs]; rfl)
      have he := exec_moveAct comp sem d r u' s hs hd
      obtain ⟨u1', h1, h2, h3, h4, h5⟩ := ih (sim_moved h d hs) (fun r hr => hrs r (by simp [hr]))
      refine ⟨u1', ?_, h2, h3, ?_, ?_⟩
      · simp only [List.map_cons, reaches, he]; exact h1
      · intro r' hr'
        rcases List.mem_cons.1 hr' with rfl | hr'
        · apply h5
          simp only [if_true]
          exact moved_on d s
        · exact h4 r' hr'
      · intro r' hr'
        apply h5
        simp only
        split_ifs
        · exact moved_on d s
        · exact hr'

/-! ### Calls -/

def BundleOn (d : Dev) (b : Bundle (Placed V)) : Prop :=
  (∀ x ∈ b.args, ∀ v ∈ x, onDev d v.2) ∧ ∀ kx ∈ b.kwargs, ∀ v ∈ kx.2, onDev d v.2

theorem getDataset_on {comp : Dev} {sem : Sem V W} {reg : Reg (Placed V)} {c : Ctx} {r : Ref} {d : List (Placed V)}
    (hr : r.NotConst → EntryOn comp (reg r)) (h : getDataset (placed comp sem) reg c r = .ok d) : ∀ v ∈ d, onDev comp v.2 := by
  have key : r.NotConst → (∃ d', reg.load r c = .ok (.data d') ∧ d' = d) → ∀ v ∈ d, onDev comp v.2 := by
    rintro hn ⟨d', hk, rfl⟩
    unfold Reg.load at hk
    cases hs : reg r with
    | none => rw [hs] at hk; simp at hk
    | some s =>
      rw [hs] at hk
      simp only at hk
      cases hl : s.lookup c with
      | none => rw [hl] at hk; simp at hk
      | some x =>
        rw [hl] at hk
        simp only [Except.ok.injEq] at hk
        subst hk
        exact hr hn s hs _ (mem_of_lookup hl)
  have key2 : (∀ k, r ≠ .const k) → ∃ d', reg.load r c = .ok (.data d') ∧ d' = d := by
    intro hn
    unfold getDataset at h
    split at h
    · exact absurd rfl (hn _)
    · split at h
      · simp at h
      · rename_i d' hd'
        exact ⟨d', hd', by simpa using h⟩
      · simp at h
  by_cases hn : r.NotConst
  · exact key hn (key2 hn)
  · unfold Ref.NotConst at hn
    push Not at hn
    obtain ⟨k, rfl⟩ := hn
    simp only [getDataset, Except.ok.injEq] at h
    subst h
    intro v hv
    simp only [List.mem_singleton] at hv
    subst hv
    left
    rfl

theorem broadcast_mem {A : Type} {ds out : List (List A)} (h : broadcast ds = .ok out) : ∀ x ∈ out, ∀ v ∈ x, ∃ d ∈ ds, v ∈ d := by
  unfold broadcast at h
  simp only at h
  split_ifs at h with hl
  · simp only [Except.ok.injEq] at h
    subst h
    intro x hx v hv
    exact ⟨x, hx, hv⟩
  · split at h
    · simp only [Except.ok.injEq] at h
      subst h
      intro x hx v hv
      obtain ⟨d, hd, rfl⟩ := List.mem_map.1 hx
      refine ⟨d, hd, ?_⟩
      split_ifs at hv
      · rw [List.mem_flatten] at hv
        obtain ⟨l, hl, hv⟩ := hv
        rw [List.mem_replicate] at hl
        rw [← hl.2]
        exact hv
      · exact hv
    · simp at h

theorem mapM_ok_mem {α β : Type} {g : α → Except EErr β} {l : List α} {out : List β} (h : l.mapM g = .ok out) :
    ∀ b ∈ out, ∃ a ∈ l, g a = .ok b := by
  induction l generalizing out with
  | nil =>
    simp only [List.mapM_nil, pure, Except.pure, Except.ok.injEq] at h
    subst h; simp
  | cons a l ih =>
    rw [List.mapM_cons] at h
    simp only [bind, Except.bind, pure, Except.pure] at h
    cases ha : g a with
    | error e => rw [ha] at h; simp at h
    | ok b =>
      rw [ha] at h
      simp only at h
      cases hl : l.mapM g with
      | error e => rw [hl] at h; simp at h
      | ok bs =>
        rw [hl] at h
        simp only [Except.ok.injEq] at h
        subst h
        intro b' hb'
        rcases List.mem_cons.1 hb' with rfl | hb'
        · exact ⟨a, by simp, ha⟩
        · obtain ⟨a', h1, h2⟩ := ih hl b' hb'
          exact ⟨a', by simp [h1], h2⟩

theorem gather_on {comp : Dev} {sem : Sem V W} {reg : Reg (Placed V)} {c : Ctx} {args : List Ref} {kwargs : List (String × Ref)}
    {b : Bundle (Placed V)} (hr : ∀ r ∈ args ++ kwargs.map (·.2), r.NotConst → EntryOn comp (reg r))
    (h : gather (placed comp sem) reg c args kwargs = .ok b) : BundleOn comp b := by
  unfold gather at h
  simp only [bind, Except.bind] at h
  cases h1 : args.mapM (getDataset (placed comp sem) reg c) with
  | error e => rw [h1] at h; simp at h
  | ok ad =>
    rw [h1] at h
    simp only at h
    cases h2 : (kwargs.map (·.2)).mapM (getDataset (placed comp sem) reg c) with
    | error e => rw [h2] at h; simp at h
    | ok kd =>
      rw [h2] at h
      simp only at h
      cases h3 : broadcast (ad ++ kd) with
      | error e => rw [h3] at h; simp at h
      | ok out =>
        rw [h3] at h
        simp only [Except.ok.injEq] at h
        subst h
        have hall : ∀ x ∈ out, ∀ v ∈ x, onDev comp v.2 := by
          intro x hx v hv
          obtain ⟨d, hd, hvd⟩ := broadcast_mem h3 x hx v hv
          rcases List.mem_append.1 hd with hd | hd
          · obtain ⟨r, hrm, hg⟩ := mapM_ok_mem h1 d hd
            exact getDataset_on (hr r (by simp [hrm])) hg v hvd
          · obtain ⟨r, hrm, hg⟩ := mapM_ok_mem h2 d hd
            exact getDataset_on (hr r (List.mem_append.2 (Or.inr hrm))) hg v hvd
        refine ⟨fun x hx => hall x (List.mem_of_mem_take hx), ?_⟩
        intro kx hkx
        exact hall kx.2 (List.mem_of_mem_drop (List.of_mem_zip (a := kx.1) (b := kx.2) hkx).2)

theorem row_on {d : Dev} {b : Bundle (Placed V)} (hb : BundleOn d b) {i : ℕ} {r : List (Placed V) × List (String × Placed V)}
    (h : b.row i = .ok r) : (∀ v ∈ r.1, onDev d v.2) ∧ ∀ kv ∈ r.2, onDev d kv.2.2 := by
  unfold Bundle.row at h
  simp only [bind, Except.bind] at h
  cases h1 : b.args.mapM (batchAt i) with
  | error e => rw [h1] at h; simp at h
  | ok a =>
    rw [h1] at h
    simp only at h
    cases h2 : b.kwargs.mapM (kwBatchAt i) with
    | error e => rw [h2] at h; simp at h
    | ok k =>
      rw [h2] at h
      simp only [Except.ok.injEq] at h
      subst h
      constructor
      · intro v hv
        obtain ⟨x, hx, hg⟩ := mapM_ok_mem h1 v hv
        unfold batchAt at hg
        split at hg
        · rename_i v' hv'
          simp only [Except.ok.injEq] at hg
          subst hg
          exact hb.1 x hx _ (List.mem_of_getElem? hv')
        · simp at hg
      · intro kv hkv
        obtain ⟨x, hx, hg⟩ := mapM_ok_mem h2 kv hkv
        unfold kwBatchAt at hg
        split at hg
        · rename_i v' hv'
          simp only [Except.ok.injEq] at hg
          subst hg
          exact hb.2 x hx _ (List.mem_of_getElem? hv')
        · simp at hg

theorem callTarget_placed {comp : Dev} {sem : Sem V W} {w : W × Placement} {c : Ctx} {m : ℕ} {args : List (Placed V)}
    {kwargs : List (String × Placed V)} (ha : ∀ v ∈ args, onDev comp v.2) (hk : ∀ kv ∈ kwargs, onDev comp kv.2.2)
    (hm : ∀ p ∈ w.2 m, p.2 = comp) : callTarget (placed comp sem) w c m args kwargs =
      (callTarget sem w.1 c m (args.map (·.1)) (kwargs.map fun kv => (kv.1, kv.2.1))).map (·, some comp) := by
  have : (placed comp sem).call w c m args kwargs =
      (sem.call w.1 c m (args.map (·.1)) (kwargs.map fun kv => (kv.1, kv.2.1))).map (·, some comp) := if_pos ⟨ha, hk, hm⟩
  unfold callTarget
  rw [this]
  cases sem.call w.1 c m (args.map (·.1)) (kwargs.map fun kv => (kv.1, kv.2.1)) <;> rfl

theorem callOne_placed {comp : Dev} {sem : Sem V W} {u : St V W} {u' : St (Placed V) (W × Placement)} (h : Sim u u') {m : ℕ}
    {args : List Ref} {kwargs : List (String × Ref)} (hr : ∀ r ∈ args ++ kwargs.map (·.2), r.NotConst → EntryOn comp (u'.reg r))
    (hm : ∀ p ∈ u'.w.2 m, p.2 = comp) (c : Ctx) :
    callOne (placed comp sem) u' m args kwargs c = (callOne sem u m args kwargs c).map (List.map (·, some comp)) := by
  unfold callOne
  have hg : gather sem u.reg c args kwargs = (gather (placed comp sem) u'.reg c args kwargs).map (Bundle.map Prod.fst) := by
    rw [h.reg]
    exact gather_map Prod.fst (fun _ => rfl) u'.reg c args kwargs
  rw [hg]
  simp only [bind, Except.bind]
  cases hb : gather (placed comp sem) u'.reg c args kwargs with
  | error e => rfl
  | ok b =>
    simp only [Except.map]
    have hbo := gather_on hr hb
    by_cases he : (args.isEmpty && kwargs.isEmpty) = true
    · rw [if_pos he, if_pos he, callTarget_placed (by simp) (by simp) hm, h.w]
      simp only [List.map_nil]
      cases callTarget sem u.w c m [] [] <;> rfl
    · rw [if_neg he, if_neg he, len_map]
      have hrow : ∀ i, callBatch (placed comp sem) u'.w c m b i = (callBatch sem u.w c m (b.map Prod.fst) i).map (·, some comp) := by
        intro i
        unfold callBatch
        rw [row_map]
        cases hri : b.row i with
        | error e => rfl
        | ok r =>
          simp only [Except.map]
          obtain ⟨h1, h2⟩ := row_on hbo hri
          have := callTarget_placed (sem := sem) (c := c) h1 h2 hm
          rw [this, h.w]
          rfl
      have := mapM_map_except (callBatch sem u.w c m (b.map Prod.fst)) (·, some comp) (List.range b.len)
      rw [show callBatch (placed comp sem) u'.w c m b = fun i => (callBatch sem u.w c m (b.map Prod.fst) i).map (·, some comp) from funext hrow]
      exact this

theorem callAll_placed {comp : Dev} {sem : Sem V W} {u : St V W} {u' : St (Placed V) (W × Placement)} (h : Sim u u') {m : ℕ}
    {args : List Ref} {kwargs : List (String × Ref)} (hr : ∀ r ∈ args ++ kwargs.map (·.2), r.NotConst → EntryOn comp (u'.reg r))
    (hm : ∀ p ∈ u'.w.2 m, p.2 = comp) (cs : List Ctx) {res : Streams V} (hc : callAll sem u m args kwargs cs = .ok res) :
    ∃ res', callAll (placed comp sem) u' m args kwargs cs = .ok res' ∧ smap Prod.fst res' = res ∧
      ∀ p ∈ res', p.2 ≠ Cell.constObj ∧ CellOn comp p.2 := by
  induction cs generalizing res with
  | nil => simp only [callAll, Except.ok.injEq] at hc; subst hc; exact ⟨[], rfl, rfl, by simp⟩
  | cons c cs ih =>
    simp only [callAll, bind, Except.bind] at hc ⊢
    rw [callOne_placed h hr hm c]
    cases h1 : callOne sem u m args kwargs c with
    | error e => rw [h1] at hc; simp at hc
    | ok d =>
      rw [h1] at hc
      simp only at hc
      cases h2 : callAll sem u m args kwargs cs with
      | error e => rw [h2] at hc; simp at hc
      | ok rest =>
        rw [h2] at hc
        simp only [Except.ok.injEq] at hc
        subst hc
        obtain ⟨rest', h3, h4, h5⟩ := ih h2
        simp only [Except.map]
        rw [h3]
        refine ⟨(c, .data (d.map (·, some comp))) :: rest', rfl, ?_, ?_⟩
        · rw [← h4]
          have : List.map (Prod.fst ∘ fun x => (x, some comp)) d = d := by
            rw [show (Prod.fst ∘ fun x : V => (x, some comp)) = id from rfl, List.map_id]
          simp [smap, Cell.map, this]
        · intro p hp
          rcases List.mem_cons.1 hp with rfl | hp
          · refine ⟨by simp, ?_⟩
            intro v hv
            obtain ⟨x, _, rfl⟩ := List.mem_map.1 hv
            right; rfl
          · exact h5 p hp

theorem optimize_placed {comp : Dev} {sem : Sem V W} {u u1 : St V W} {u' : St (Placed V) (W × Placement)} (h : Sim u u') {m : ℕ}
    {args : List Ref} {kwargs : List (String × Ref)} {d : Delegate}
    (hr : ∀ r ∈ args ++ kwargs.map (·.2), r.NotConst → EntryOn comp (u'.reg r)) (hm : ∀ p ∈ u'.w.2 m, p.2 = comp) {o : Option (Out V)}
    (he : exec sem (.optimize m args kwargs d) u = .ok (u1, o)) :
    ∃ u1', exec (placed comp sem) (.optimize m args kwargs d) u' = .ok (u1', none) ∧ Sim u1 u1' ∧ u1'.w.2 = u'.w.2 ∧ u1'.reg = u'.reg ∧
      o = none := by
  simp only [exec] at he ⊢
  have hg : (fun c => gather sem u.reg c args kwargs) = fun c => (gather (placed comp sem) u'.reg c args kwargs).map (Bundle.map Prod.fst) := by
    funext c
    rw [h.reg]
    exact gather_map Prod.fst (fun _ => rfl) u'.reg c args kwargs
  rw [hg, mapM_map_except] at he
  cases hb : d.contexts.mapM fun c => gather (placed comp sem) u'.reg c args kwargs with
  | error e => rw [hb] at he; simp [Except.map] at he
  | ok bs =>
    rw [hb] at he
    simp only [Except.map] at he
    simp only
    have hon : ∀ b ∈ bs, BundleOn comp b := by
      intro b hbm
      obtain ⟨c, _, hgc⟩ := mapM_ok_mem hb b hbm
      exact gather_on hr hgc
    have hopt : (placed comp sem).optimize u'.w d.fn m bs =
        (sem.optimize u'.w.1 d.fn m (bs.map (Bundle.map Prod.fst))).map (·, u'.w.2) := if_pos ⟨hon, hm⟩
    rw [hopt, h.w]
    cases ho : sem.optimize u.w d.fn m (bs.map (Bundle.map Prod.fst)) with
    | none => rw [ho] at he; simp at he
    | some w =>
      rw [ho] at he
      simp only [Except.ok.injEq, Prod.mk.injEq] at he
      obtain ⟨rfl, rfl⟩ := he
      exact ⟨⟨(w, u'.w.2), u'.reg⟩, rfl, ⟨rfl, h.reg⟩, rfl, rfl, rfl⟩

end FF.Orch
