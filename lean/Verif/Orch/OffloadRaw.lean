import Verif.Orch.OffloadSim

/-! # The offloading passes before redundant moves are removed -/

namespace FF.Orch

variable {V W : Type}

/-- What stands for one instruction after both insertion passes. -/
def block (comp stor : Dev) (i : Instr) : List Instr := (wrapWeights comp stor i).flatMap (wrapActivations comp stor)

theorem flatMap_self {α : Type} (f : α → List α) (l : List α) (h : ∀ a ∈ l, f a = [a]) : l.flatMap f = l := by
  induction l with
  | nil => rfl
  | cons a l ih => rw [List.flatMap_cons, h a (by simp), ih fun b hb => h b (by simp [hb])]; rfl

theorem insertMoves_eq (comp stor : Dev) (mods : List ℕ) (place : Placement) (is : List Instr) :
    insertMoves comp stor mods place is = preOffload stor mods ++ (is.flatMap (block comp stor) ++ postRestore mods place) := by
  unfold insertMoves activationOffload weightOffload
  rw [List.append_assoc, List.flatMap_append, List.flatMap_append, List.flatMap_assoc]
  congr 1
  · apply flatMap_self
    intro a ha
    unfold preOffload at ha
    obtain ⟨m, _, rfl⟩ := List.mem_map.1 ha
    rfl
  · congr 1
    apply flatMap_self
    intro a ha
    unfold postRestore at ha
    obtain ⟨m, _, rfl⟩ := List.mem_map.1 ha
    rfl

/-- The placement differs from the original one in devices only, and only for the modules of the graph. -/
structure Track (mods : List ℕ) (place p : Placement) : Prop where
  names : ∀ k, (p k).map (·.1) = (place k).map (·.1)
  others : ∀ k, k ∉ mods → p k = place k

/-- The instruction runs in some context; modules belong to the graph, functions have no parameters. -/
def Instr.Live (mods : List ℕ) (place : Placement) : Instr → Prop
  | .call m im _ _ _ cs => cs ≠ [] ∧ (im = true → m ∈ mods) ∧ (im = false → place m = [])
  | .optimize m _ _ d => d.contexts ≠ [] ∧ m ∈ mods
  | _ => True

theorem moveParams_names (l : List (String × Dev)) (t : MoveTo) : (moveParams l t).map (·.1) = l.map (·.1) := by
  cases t <;> simp [moveParams, Function.comp]

theorem track_move {mods : List ℕ} {place p : Placement} (h : Track mods place p) {m : ℕ} (hm : m ∈ mods) (t : MoveTo) :
    Track mods place (fun k => if k = m then moveParams (p k) t else p k) := by
  refine ⟨?_, ?_⟩
  · intro k
    by_cases hk : k = m
    · simp only [hk, if_true]; rw [moveParams_names, h.names]
    · simp only [hk, if_false]; exact h.names k
  · intro k hk
    have : k ≠ m := fun h => hk (h ▸ hm)
    simp only [this, if_false]; exact h.others k hk

theorem mapM_ok_all {α β : Type} {g : α → Except EErr β} {l : List α} {out : List β} (h : l.mapM g = .ok out) :
    ∀ a ∈ l, ∃ b, g a = .ok b := by
  induction l generalizing out with
  | nil => simp
  | cons a l ih =>
    rw [List.mapM_cons] at h
    simp only [bind, Except.bind, pure, Except.pure] at h
    cases ha : g a with
    | error e => rw [ha] at h; simp at h
    | ok b =>
      rw [ha] at h
      simp only at h
      cases hl : l.mapM g with
      | error e => rw [hl] at h; simp at h
      | ok bs =>
        intro a' ha'
        rcases List.mem_cons.1 ha' with rfl | ha'
        · exact ⟨b, ha⟩
        · exact ih hl a' ha'

theorem getDataset_present {sem : Sem V W} {reg : Reg V} {c : Ctx} {r : Ref} {d : List V} (h : getDataset sem reg c r = .ok d)
    (hn : r.NotConst) : (reg r).isSome := by
  unfold getDataset at h
  split at h
  · exact absurd rfl (hn _)
  · unfold Reg.load at h
    cases hs : reg r with
    | none => rw [hs] at h; simp at h
    | some s => rfl

theorem gather_present {sem : Sem V W} {reg : Reg V} {c : Ctx} {args : List Ref} {kwargs : List (String × Ref)} {b : Bundle V}
    (h : gather sem reg c args kwargs = .ok b) : ∀ r ∈ args ++ kwargs.map (·.2), r.NotConst → (reg r).isSome := by
  unfold gather at h
  simp only [bind, Except.bind] at h
  cases h1 : args.mapM (getDataset sem reg c) with
  | error e => rw [h1] at h; simp at h
  | ok ad =>
    rw [h1] at h
    simp only at h
    cases h2 : (kwargs.map (·.2)).mapM (getDataset sem reg c) with
    | error e => rw [h2] at h; simp at h
    | ok kd =>
      intro r hr hn
      rcases List.mem_append.1 hr with hr | hr
      · obtain ⟨d, hd⟩ := mapM_ok_all h1 r hr; exact getDataset_present hd hn
      · obtain ⟨d, hd⟩ := mapM_ok_all h2 r hr; exact getDataset_present hd hn

theorem uses_present {sem : Sem V W} {mods : List ℕ} {place : Placement} {i : Instr} (hl : i.Live mods place)
    (hi : (∃ m im args kwargs t cs, i = .call m im args kwargs t cs) ∨ ∃ m args kwargs d, i = .optimize m args kwargs d) {u u1 : St V W}
    {o : Option (Out V)} (he : exec sem i u = .ok (u1, o)) : ∀ r ∈ i.uses, r.NotConst → (u.reg r).isSome := by
  rcases hi with ⟨m, im, args, kwargs, t, cs, rfl⟩ | ⟨m, args, kwargs, d, rfl⟩
  · simp only [exec] at he
    cases cs with
    | nil => exact absurd rfl hl.1
    | cons c cs =>
      simp only [callAll, bind, Except.bind] at he
      cases h1 : callOne sem u m args kwargs c with
      | error e => rw [h1] at he; simp at he
      | ok x =>
        unfold callOne at h1
        simp only [bind, Except.bind] at h1
        cases h2 : gather sem u.reg c args kwargs with
        | error e => rw [h2] at h1; simp at h1
        | ok b => exact gather_present h2
  · simp only [exec] at he
    cases hd : d.contexts with
    | nil => exact absurd hd hl.1
    | cons c cs =>
      rw [hd] at he
      cases h1 : (c :: cs).mapM fun c => gather sem u.reg c args kwargs with
      | error e => rw [h1] at he; simp at he
      | ok x =>
        obtain ⟨b, hb⟩ := mapM_ok_all h1 c (by simp)
        exact gather_present hb

theorem constBase_of_present {reg : Reg V} (h : RegOk reg) {r : Ref} (hn : r.NotConst) (hp : (reg r).isSome) : r.constBase = false := by
  by_contra hc
  rw [h.attrs r (by simpa using hc) hn] at hp
  simp at hp

theorem notConst_of_base {r : Ref} (h : r.constBase = false) : r.NotConst := by
  intro k hk
  subst hk
  simp [Ref.constBase, Ref.unwrap] at h

/-- The moves before a call or an optimization put everything it uses on the compute device. -/
theorem before_sim (comp : Dev) {sem : Sem V W} {mods : List ℕ} {place : Placement} {i : Instr} (hl : i.Live mods place)
    (hi : (∃ m im args kwargs t cs, i = .call m im args kwargs t cs) ∨ ∃ m args kwargs d, i = .optimize m args kwargs d) {u u1 : St V W}
    {u' : St (Placed V) (W × Placement)} (h : Sim u u') (hok : RegOk u.reg) {o : Option (Out V)} (he : exec sem i u = .ok (u1, o)) :
    ∃ u1', reaches (placed comp sem) (actsBefore comp i) u' = some u1' ∧ Sim u u1' ∧ u1'.w = u'.w ∧
      ∀ r ∈ i.uses, r.NotConst → EntryOn comp (u1'.reg r) := by
  have hp := uses_present hl hi he
  obtain ⟨u1', h1, h2, h3, h4, _⟩ := acts_sim comp sem comp (i.uses.filter fun r => !r.constBase) h hok (by
    intro r hr
    rw [List.mem_filter] at hr
    have hn : r.NotConst := notConst_of_base (by simpa using hr.2)
    exact ⟨hn, hp r hr.1 hn⟩)
  refine ⟨u1', h1, h2, h3, ?_⟩
  intro r hr hn
  apply h4
  rw [List.mem_filter]
  exact ⟨hr, by rw [constBase_of_present hok hn (hp r hr hn)]; rfl⟩

theorem moveParams_dev (l : List (String × Dev)) (d : Dev) : ∀ p ∈ moveParams l (.dev d), p.2 = d := by
  intro p hp
  simp only [moveParams] at hp
  obtain ⟨q, _, rfl⟩ := List.mem_map.1 hp
  rfl

theorem sim_moveModule (comp : Dev) {sem : Sem V W} {u : St V W} {u' : St (Placed V) (W × Placement)} (h : Sim u u') (t : MoveTo) (m : ℕ) :
    Sim u ⟨(placed comp sem).moveModule u'.w t m, u'.reg⟩ := ⟨h.w, h.reg⟩

/-- A call, from a state with all its arguments and its module on the compute device, and the move of its result. -/
theorem call_sim (comp stor : Dev) {sem : Sem V W} {m : ℕ} {im : Bool} {args : List Ref} {kwargs : List (String × Ref)} {t : Ref}
    {cs : List Ctx} (ht : ∃ id, t = .node id) {u u1 : St V W} {u' : St (Placed V) (W × Placement)} (h : Sim u u')
    (hok1 : RegOk u1.reg) (hr : ∀ r ∈ args ++ kwargs.map (·.2), r.NotConst → EntryOn comp (u'.reg r)) (hm : ∀ p ∈ u'.w.2 m, p.2 = comp)
    {o : Option (Out V)} (he : exec sem (.call m im args kwargs t cs) u = .ok (u1, o)) :
    ∃ u1', reaches (placed comp sem) [.call m im args kwargs t cs, .moveAct stor t] u' = some u1' ∧ Sim u1 u1' ∧ u1'.w = u'.w ∧ o = none := by
  obtain ⟨id, rfl⟩ := ht
  simp only [exec] at he
  cases hc : callAll sem u m args kwargs cs with
  | error e => rw [hc] at he; simp at he
  | ok res =>
    rw [hc] at he
    simp only [Except.ok.injEq, Prod.mk.injEq] at he
    obtain ⟨rfl, rfl⟩ := he
    obtain ⟨res', h1, h2, h3⟩ := callAll_placed h hr hm cs hc
    have hex : exec (placed comp sem) (.call m im args kwargs (.node id) cs) u' = .ok (⟨u'.w, u'.reg.storeAll (.node id) res'⟩, none) := by
      simp only [exec, h1]
    have hs : Sim ⟨u.w, u.reg.storeAll (.node id) res⟩ (⟨u'.w, u'.reg.storeAll (.node id) res'⟩ : St (Placed V) (W × Placement)) :=
      ⟨h.w, by rw [rmap_storeAll, h2, ← h.reg]⟩
    obtain ⟨u1', h4, h5, h6, _⟩ := acts_sim comp sem stor [.node id] hs hok1 (by
      intro r hr
      simp only [List.mem_singleton] at hr
      subst hr
      refine ⟨by intro k; simp, ?_⟩
      simp [Reg.storeAll])
    refine ⟨u1', ?_, h5, h6, rfl⟩
    simp only [List.map_cons, List.map_nil] at h4
    simp only [reaches, hex]
    exact h4

theorem track_nil {mods : List ℕ} {place p : Placement} (h : Track mods place p) {m : ℕ} (hm : place m = []) : p m = [] := by
  have := h.names m
  rw [hm] at this
  simpa using this

theorem reaches_cons {sem : Sem V W} {i : Instr} {is : List Instr} {s s' : St V W} (h : exec sem i s = .ok (s', none)) :
    reaches sem (i :: is) s = reaches sem is s' := by
  simp only [reaches, h]

/-- One instruction of the program. -/
theorem block_sim (comp stor : Dev) {sem : Sem V W} {mods : List ℕ} {place : Placement} {i : Instr} (hi : i.Unplaced)
    (hl : i.Live mods place) {u u1 : St V W} {u' : St (Placed V) (W × Placement)} (h : Sim u u') (hok : RegOk u.reg)
    (ht : Track mods place u'.w.2) (he : exec sem i u = .ok (u1, none)) :
    ∃ u1', reaches (placed comp sem) (block comp stor i) u' = some u1' ∧ Sim u1 u1' ∧ Track mods place u1'.w.2 := by
  have hpassive : i.passive = true → block comp stor i = [i] →
      ∃ u1', reaches (placed comp sem) (block comp stor i) u' = some u1' ∧ Sim u1 u1' ∧ Track mods place u1'.w.2 := by
    intro hp hb
    obtain ⟨u1', o', h1, h2, h3, h4⟩ := exec_passive comp hp h he
    refine ⟨u1', ?_, h2, h3 ▸ ht⟩
    rw [hb]
    cases o' with
    | some x => simp at h4
    | none => simp only [reaches, h1]
  have hok1 := regOk_exec hi hok he
  cases i with
  | store t cs => exact hpassive rfl rfl
  | load s t a => exact hpassive rfl rfl
  | ret outs => exact hpassive rfl rfl
  | delete ts => exact hpassive rfl rfl
  | moveModule t m => exact absurd hi id
  | moveAct d r => exact absurd hi id
  | call m im args kwargs t cs =>
    cases im with
    | false =>
      obtain ⟨u2, h1, h2, h3, h4⟩ := before_sim comp hl (Or.inl ⟨m, false, args, kwargs, t, cs, rfl⟩) h hok he
      have hmn : u2.w.2 m = [] := by rw [h3]; exact track_nil ht (hl.2.2 rfl)
      obtain ⟨u3, h5, h6, h7, _⟩ := call_sim comp stor hi h2 hok1 h4 (by rw [hmn]; simp) he
      refine ⟨u3, ?_, h6, by rw [h7, h3]; exact ht⟩
      have hb : block comp stor (.call m false args kwargs t cs) =
          actsBefore comp (.call m false args kwargs t cs) ++ [.call m false args kwargs t cs, .moveAct stor t] := by
        simp [block, wrapWeights, wrapActivations]
      rw [hb, reaches_append, h1]
      exact h5
    | true =>
      have hmm := hl.2.1 rfl
      let u0 : St (Placed V) (W × Placement) := ⟨(placed comp sem).moveModule u'.w (.dev comp) m, u'.reg⟩
      have h0 : Sim u u0 := sim_moveModule comp h _ m
      obtain ⟨u2, h1, h2, h3, h4⟩ := before_sim comp hl (Or.inl ⟨m, true, args, kwargs, t, cs, rfl⟩) h0 hok he
      obtain ⟨u3, h5, h6, h7, _⟩ := call_sim comp stor hi h2 hok1 h4 (by
        rw [h3]
        intro p hp
        simp only [u0, placed, if_true] at hp
        exact moveParams_dev _ _ p hp) he
      refine ⟨⟨(placed comp sem).moveModule u3.w (.dev stor) m, u3.reg⟩, ?_, sim_moveModule comp h6 _ m, ?_⟩
      · have hb : block comp stor (.call m true args kwargs t cs) = .moveModule (.dev comp) m ::
            (actsBefore comp (.call m true args kwargs t cs) ++
              ([.call m true args kwargs t cs, .moveAct stor t] ++ [.moveModule (.dev stor) m])) := by
          simp [block, wrapWeights, wrapActivations]
        rw [hb, reaches_cons (s' := u0) rfl, reaches_append, h1, Option.bind_some, reaches_append, h5]
        rfl
      · exact track_move (by rw [h7, h3]; exact track_move ht hmm _) hmm _
  | optimize m args kwargs d =>
    have hmm := hl.2
    let u0 : St (Placed V) (W × Placement) := ⟨(placed comp sem).moveModule u'.w (.dev comp) m, u'.reg⟩
    have h0 : Sim u u0 := sim_moveModule comp h _ m
    obtain ⟨u2, h1, h2, h3, h4⟩ := before_sim comp hl (Or.inr ⟨m, args, kwargs, d, rfl⟩) h0 hok he
    obtain ⟨u3, h5, h6, h7, h8, _⟩ := optimize_placed h2 h4 (by
      rw [h3]
      intro p hp
      simp only [u0, placed, if_true] at hp
      exact moveParams_dev _ _ p hp) he
    refine ⟨⟨(placed comp sem).moveModule u3.w (.dev stor) m, u3.reg⟩, ?_, sim_moveModule comp h6 _ m, ?_⟩
    · have hb : block comp stor (.optimize m args kwargs d) = .moveModule (.dev comp) m ::
          (actsBefore comp (.optimize m args kwargs d) ++ [.optimize m args kwargs d, .moveModule (.dev stor) m]) := by
        simp [block, wrapWeights, wrapActivations]
      rw [hb, reaches_cons (s' := u0) rfl, reaches_append, h1, Option.bind_some, reaches_cons h5]
      rfl
    · exact track_move (by rw [h7, h3]; exact track_move ht hmm _) hmm _

theorem ret_of_some {sem : Sem V W} {i : Instr} {u u1 : St V W} {out : Out V} (he : exec sem i u = .ok (u1, some out)) :
    ∃ outs, i = .ret outs := by
  cases i with
  | ret outs => exact ⟨outs, rfl⟩
  | store t cs => simp [exec] at he
  | delete ts => simp [exec] at he
  | moveModule t m => simp [exec] at he
  | load s t a => simp only [exec] at he; split at he <;> [simp at he; (split at he <;> simp at he)]
  | call m im args kwargs t cs => simp only [exec] at he; split at he <;> simp at he
  | optimize m args kwargs d => simp only [exec] at he; split at he <;> [simp at he; (split at he <;> simp at he)]
  | moveAct d r => simp only [exec] at he; split at he <;> [simp at he; (split at he <;> simp at he)]

theorem run_append {sem : Sem V W} {p : List Instr} {s s' : St V W} (h : reaches sem p s = some s') (q : List Instr) :
    run sem (p ++ q) s = run sem q s' := by
  induction p generalizing s with
  | nil => simp only [reaches, Option.some.injEq] at h; subst h; rfl
  | cons i p ih =>
    simp only [reaches] at h
    simp only [List.cons_append, run]
    split at h
    · rename_i s1 he
      rw [he]
      exact ih h
    · simp at h

/-- The whole body, followed by anything. -/
theorem body_sim (comp stor : Dev) {sem : Sem V W} {mods : List ℕ} {place : Placement} (is : List Instr) (hi : ∀ i ∈ is, i.Unplaced)
    (hl : ∀ i ∈ is, i.Live mods place) {u uf : St V W} {u' : St (Placed V) (W × Placement)} (h : Sim u u') (hok : RegOk u.reg)
    (ht : Track mods place u'.w.2) {o : Option (Out V)} (hr : run sem is u = (uf, .ok o)) :
    match o with
    | none => ∃ u1', reaches (placed comp sem) (is.flatMap (block comp stor)) u' = some u1' ∧ Sim uf u1' ∧ Track mods place u1'.w.2
    | some out => ∀ rest, ∃ u1' out', run (placed comp sem) (is.flatMap (block comp stor) ++ rest) u' = (u1', .ok (some out')) ∧
        Sim uf u1' ∧ Track mods place u1'.w.2 ∧ omap Prod.fst out' = out := by
  induction is generalizing u u' with
  | nil =>
    simp only [run, Prod.mk.injEq, Except.ok.injEq] at hr
    obtain ⟨rfl, rfl⟩ := hr
    exact ⟨u', rfl, h, ht⟩
  | cons i is ih =>
    simp only [run] at hr
    cases he : exec sem i u with
    | error e => rw [he] at hr; simp at hr
    | ok x =>
      obtain ⟨u1, o1⟩ := x
      rw [he] at hr
      cases o1 with
      | none =>
        simp only at hr
        obtain ⟨u1', h1, h2, h3⟩ := block_sim comp stor (hi i (by simp)) (hl i (by simp)) h hok ht he
        have := ih (fun j hj => hi j (by simp [hj])) (fun j hj => hl j (by simp [hj])) h2 (regOk_exec (hi i (by simp)) hok he) h3 hr
        rw [List.flatMap_cons]
        cases o with
        | none =>
          obtain ⟨u2, h4, h5⟩ := this
          exact ⟨u2, by rw [reaches_append, h1]; exact h4, h5⟩
        | some out =>
          intro rest
          obtain ⟨u2, out', h4, h5⟩ := this rest
          exact ⟨u2, out', by rw [List.append_assoc, run_append h1]; exact h4, h5⟩
      | some out =>
        simp only [Prod.mk.injEq, Except.ok.injEq] at hr
        obtain ⟨rfl, rfl⟩ := hr
        obtain ⟨outs, rfl⟩ := ret_of_some he
        obtain ⟨u1', o', h1, h2, h3, h4⟩ := exec_passive comp (i := .ret outs) rfl h he
        intro rest
        cases o' with
        | none => simp at h4
        | some out' =>
          refine ⟨u1', out', ?_, h2, h3 ▸ ht, by simpa using h4⟩
          rw [List.flatMap_cons, show block comp stor (.ret outs) = [.ret outs] from rfl]
          simp only [List.cons_append, run, h1]

/-- A list of module moves. -/
theorem moves_sim (comp : Dev) {sem : Sem V W} {mods : List ℕ} {place : Placement} (l : List (MoveTo × ℕ)) (hl : ∀ p ∈ l, p.2 ∈ mods)
    {u : St V W} {u' : St (Placed V) (W × Placement)} (h : Sim u u') (ht : Track mods place u'.w.2) :
    ∃ u1', reaches (placed comp sem) (l.map fun p => .moveModule p.1 p.2) u' = some u1' ∧ Sim u u1' ∧ Track mods place u1'.w.2 ∧
      u1'.reg = u'.reg := by
  induction l generalizing u' with
  | nil => exact ⟨u', rfl, h, ht, rfl⟩
  | cons p l ih =>
    have h1 := sim_moveModule comp (sem := sem) h p.1 p.2
    obtain ⟨u1', h2, h3, h4, h5⟩ := ih (fun q hq => hl q (by simp [hq])) h1 (track_move ht (hl p (by simp)) p.1)
    exact ⟨u1', by rw [List.map_cons, reaches_cons rfl]; exact h2, h3, h4, h5⟩

theorem restore_params {l l' : List (String × Dev)} (h : l.map (·.1) = l'.map (·.1)) (hn : (l'.map (·.1)).Nodup) :
    moveParams l (.map l') = l' := by
  simp only [moveParams]
  have key : ∀ a b : List (String × Dev), a.map (·.1) = b.map (·.1) → (∀ p ∈ b, Dict.get l' p.1 = some p.2) →
      a.map (fun p => (p.1, (Dict.get l' p.1).getD p.2)) = b := by
    intro a
    induction a with
    | nil => intro b hb _; cases b with
      | nil => rfl
      | cons x b => simp at hb
    | cons x a ih =>
      intro b hb hg
      cases b with
      | nil => simp at hb
      | cons y b =>
        simp only [List.map_cons, List.cons.injEq] at hb ⊢
        refine ⟨?_, ih b hb.2 fun p hp => hg p (by simp [hp])⟩
        rw [hb.1, hg y (by simp)]
        rfl
  exact key l l' h fun p hp => (Dict.get_eq_some_iff hn).2 hp

/-- The moves at the end give every module its placement back. -/
theorem post_restores (comp : Dev) {sem : Sem V W} (mods : List ℕ) (place : Placement) (hn : ∀ m ∈ mods, ((place m).map (·.1)).Nodup)
    {u' : St (Placed V) (W × Placement)} (ht : Track mods place u'.w.2) :
    ∃ u1', reaches (placed comp sem) (postRestore mods place) u' = some u1' ∧ u1'.w = (u'.w.1, place) ∧ u1'.reg = u'.reg := by
  have key : ∀ l : List ℕ, (∀ m ∈ l, m ∈ mods) → ∀ u' : St (Placed V) (W × Placement), Track mods place u'.w.2 →
      (∀ k ∈ mods, k ∉ l → u'.w.2 k = place k) →
      ∃ u1', reaches (placed comp sem) (postRestore l place) u' = some u1' ∧ u1'.w = (u'.w.1, place) ∧ u1'.reg = u'.reg := by
    intro l
    induction l with
    | nil =>
      intro _ u' ht hk
      refine ⟨u', rfl, ?_, rfl⟩
      apply Prod.ext
      · rfl
      · funext k
        by_cases hkm : k ∈ mods
        · exact hk k hkm (by simp)
        · exact ht.others k hkm
    | cons m l ih =>
      intro hml u' ht hk
      have hmm := hml m (by simp)
      by_cases he : (place m).isEmpty = true
      · have : postRestore (m :: l) place = postRestore l place := by simp [postRestore, he]
        rw [this]
        refine ih (fun k h => hml k (by simp [h])) u' ht ?_
        intro k hkm hkl
        by_cases hkm' : k = m
        · subst hkm'
          have h0 : place k = [] := by simpa using he
          rw [h0]
          exact track_nil ht h0
        · exact hk k hkm (by simp [hkm', hkl])
      · have : postRestore (m :: l) place = .moveModule (.map (place m)) m :: postRestore l place := by simp [postRestore, he]
        rw [this, reaches_cons (s' := ⟨(placed comp sem).moveModule u'.w (.map (place m)) m, u'.reg⟩) rfl]
        refine ih (fun k h => hml k (by simp [h])) _ (track_move ht hmm _) ?_
        intro k hkm hkl
        simp only [placed]
        by_cases hkm' : k = m
        · subst hkm'
          rw [if_pos rfl]
          exact restore_params (ht.names k) (hn k hkm)
        · rw [if_neg hkm']
          exact hk k hkm (by simp [hkm', hkl])
  exact key mods (fun _ h => h) u' ht (fun k h h' => absurd h h')

/-- The program with all moves inserted, from any placed state. -/
theorem raw_run (comp stor : Dev) {sem : Sem V W} {mods : List ℕ} {place : Placement} (is : List Instr) (hi : ∀ i ∈ is, i.Unplaced)
    (hl : ∀ i ∈ is, i.Live mods place) (hn : ∀ m ∈ mods, ((place m).map (·.1)).Nodup) {u uf : St V W}
    {u' : St (Placed V) (W × Placement)} (h : Sim u u') (hok : RegOk u.reg) (hp : u'.w.2 = place) {o : Option (Out V)}
    (hr : run sem is u = (uf, .ok o)) :
    ∃ uf' o', run (placed comp sem) (insertMoves comp stor mods place is) u' = (uf', .ok o') ∧ uf'.w.1 = uf.w ∧
      o'.map (omap Prod.fst) = o ∧ (o = none → uf'.w.2 = place) := by
  rw [insertMoves_eq]
  have ht : Track mods place u'.w.2 := hp ▸ ⟨fun _ => rfl, fun _ _ => rfl⟩
  obtain ⟨u1, h1, h2, h3, _⟩ := moves_sim comp (sem := sem) (mods := mods) (mods.map fun m => (.dev stor, m)) (by
    intro p hp
    obtain ⟨m, hm, rfl⟩ := List.mem_map.1 hp
    exact hm) h ht
  have hpre : preOffload stor mods = (mods.map fun m => (MoveTo.dev stor, m)).map fun p => .moveModule p.1 p.2 := by
    rw [List.map_map]; rfl
  rw [hpre, run_append h1]
  have := body_sim comp stor is hi hl h2 hok h3 hr
  cases o with
  | none =>
    obtain ⟨u2, h4, h5, h6⟩ := this
    obtain ⟨u3, h7, h8, _⟩ := post_restores comp (sem := sem) mods place hn h6
    refine ⟨u3, none, ?_, by rw [h8]; exact h5.w, rfl, fun _ => by rw [h8]⟩
    rw [run_append h4]
    exact run_of_reaches h7
  | some out =>
    obtain ⟨u2, out', h4, h5, _, h6⟩ := this (postRestore mods place)
    exact ⟨u2, some out', h4, h5.w, by simp [h6], by simp⟩

end FF.Orch
