import Verif.Orch.OffloadMoves

/-! # Running the program without redundant moves -/

namespace FF.Orch

variable {V W : Type}

/-- Instructions that neither call, optimize nor move activations. -/
def Instr.Plain : Instr → Prop
  | .store t _ => ∃ k, t = .const k
  | .load s t a => t = .attr s a
  | .ret _ => True
  | .delete _ => True
  | .moveModule .. => True
  | _ => False

/-- Programs in which every call and optimization directly follows the moves of what it uses. -/
inductive Blocks (comp stor : Dev) : List Instr → Prop
  | nil : Blocks comp stor []
  | plain (i : Instr) (E : List Instr) : i.Plain → Blocks comp stor E → Blocks comp stor (i :: E)
  | call (m : ℕ) (im : Bool) (args : List Ref) (kwargs : List (String × Ref)) (id : ℕ) (cs : List Ctx) (E : List Instr) :
      (∀ r ∈ args ++ kwargs.map (·.2), r.unwrap = r) → Blocks comp stor E →
      Blocks comp stor (actsBefore comp (.call m im args kwargs (.node id) cs) ++
        (.call m im args kwargs (.node id) cs :: .moveAct stor (.node id) :: E))
  | optimize (m : ℕ) (args : List Ref) (kwargs : List (String × Ref)) (d : Delegate) (E : List Instr) :
      (∀ r ∈ args ++ kwargs.map (·.2), r.unwrap = r) → Blocks comp stor E →
      Blocks comp stor (actsBefore comp (.optimize m args kwargs d) ++ (.optimize m args kwargs d :: E))

def Instr.target? : Instr → List Ref
  | .call _ _ _ _ t _ => [t]
  | _ => []

def targets (is : List Instr) : List Ref := is.flatMap Instr.target?

def Instr.pends : Instr → List Ref
  | .call _ _ _ _ t _ => [t]
  | .moveAct _ r => [r]
  | _ => []

/-- No value is deleted between being computed (or moved) and being used: `U` are the values not used since. -/
def Kept (U : Ref → Prop) : List Instr → Prop
  | [] => True
  | i :: is => (∀ ts, i = .delete ts → ∀ t ∈ ts, ¬ U t) ∧ Kept (fun r => r ∈ i.pends ∨ (U r ∧ r ∉ i.uses)) is

theorem Kept.mono {U U' : Ref → Prop} {is : List Instr} (h : Kept U is) (hu : ∀ r, U' r → U r) : Kept U' is := by
  induction is generalizing U U' with
  | nil => trivial
  | cons i is ih =>
    refine ⟨fun ts hts t ht hU => h.1 ts hts t ht (hu t hU), ih h.2 ?_⟩
    rintro r (hr | ⟨hr, hr'⟩)
    · exact Or.inl hr
    · exact Or.inr ⟨hu r hr, hr'⟩

theorem kept_acts {U : Ref → Prop} (d : Dev) (rs : List Ref) {E : List Instr} :
    Kept U ((rs.map fun r => Instr.moveAct d r) ++ E) ↔ Kept (fun r => r ∈ rs ∨ U r) E := by
  induction rs generalizing U with
  | nil => simp
  | cons r rs ih =>
    have heq : (fun k => k ∈ rs ∨ (k ∈ (Instr.moveAct d r).pends ∨ (U k ∧ k ∉ (Instr.moveAct d r).uses))) = fun k => k ∈ r :: rs ∨ U k := by
      funext k
      simp only [Instr.pends, Instr.uses, List.mem_cons, eq_iff_iff]
      by_cases h : k = r
      · simp [h]
      · simp [h]
    rw [List.map_cons, List.cons_append, Kept, ih, heq]
    simp

/-! ### One step -/

theorem finish_append (comp : Dev) (E : List Instr) (b : MoveBuffer) : ∃ rest, (E.foldl (MoveBuffer.step comp) b).result = b.result ++ rest := by
  have hflush : ∀ (rs : List Ref) (b : MoveBuffer), ∃ rest, (rs.foldl MoveBuffer.flush b).result = b.result ++ rest := by
    intro rs
    induction rs with
    | nil => intro b; exact ⟨[], by simp⟩
    | cons r rs ih =>
      intro b
      obtain ⟨rest, h⟩ := ih (b.flush r)
      rw [List.foldl_cons, h]
      unfold MoveBuffer.flush
      split
      · exact ⟨rest, rfl⟩
      · dsimp only
        split_ifs
        · exact ⟨rest, rfl⟩
        · exact ⟨_, by rw [List.append_assoc]⟩
  have hinfer : ∀ (b : MoveBuffer) i, (b.infer comp i).result = b.result := by
    intro b i
    unfold MoveBuffer.infer
    split
    · rfl
    · split <;> rfl
    · rfl
  induction E generalizing b with
  | nil => exact ⟨[], by simp⟩
  | cons i E ih =>
    obtain ⟨rest, h⟩ := ih (b.step comp i)
    rw [List.foldl_cons, h]
    have : ∃ r, (b.step comp i).result = b.result ++ r := by
      obtain ⟨r, hr⟩ := hflush i.uses b
      unfold MoveBuffer.step
      split
      · exact ⟨[], by simp⟩
      · dsimp only
        rw [hinfer]
        simp only
        rw [hr]
        exact ⟨_, by rw [List.append_assoc]⟩
    obtain ⟨r, hr⟩ := this
    rw [hr]
    exact ⟨_, by rw [List.append_assoc]⟩

/-- The program emitted when the loop is over (1076-1083). -/
def finish (b : MoveBuffer) : List Instr :=
  b.result ++ (b.pending.filter fun p => Dict.get b.refDev p.2.2.unwrap ≠ some p.2.1).map fun p => .moveAct p.2.1 p.2.2

theorem uses_flushed {b b' : MoveBuffer} {rs : List Ref} {u v : St (Placed V) (W × Placement)} (h : Buf b' u v)
    (hp : ∀ k, Dict.get b'.pending k = if k ∈ rs.map Ref.unwrap then none else Dict.get b.pending k) :
    ∀ r ∈ rs, Dict.get b'.pending r = none := by
  intro r hr
  cases hg : Dict.get b'.pending r with
  | none => rfl
  | some x =>
    obtain ⟨d, r0⟩ := x
    obtain ⟨_, _, hun, _⟩ := h.pend _ _ _ hg
    rw [hp, if_pos (List.mem_map.2 ⟨r, hr, hun⟩)] at hg
    simp at hg

theorem step_plain {comp : Dev} {b : MoveBuffer} {i : Instr} (hi : i.Plain ∨ i.isOptimize = true) :
    b.step comp i = { i.uses.foldl MoveBuffer.flush b with result := (i.uses.foldl MoveBuffer.flush b).result ++ [i] } := by
  rcases hi with hi | hi
  · cases i <;> first | rfl | exact absurd hi id
  · cases i <;> first | rfl | simp [Instr.isOptimize] at hi

theorem opt_changes {i : Instr} (h : i.isOptimize = true) : i.changes = [] := by
  cases i <;> first | rfl | simp [Instr.isOptimize] at h

theorem opt_produces {i : Instr} (h : i.isOptimize = true) : i.produces = [] := by
  cases i <;> first | rfl | simp [Instr.isOptimize] at h

theorem plain_produces {i : Instr} (h : i.Plain) {r : Ref} (hr : r ∈ i.produces) : r ∈ i.changes := by
  cases i with
  | load s t a => exact hr
  | call m im args kwargs t cs => exact hr
  | _ => simp [Instr.produces] at hr

theorem unwrap_ne_attr (r r' : Ref) (a : Attr) : r.unwrap ≠ .attr r' a := by
  induction r with
  | attr r a' ih => exact ih
  | _ => simp [Ref.unwrap]

/-- Plain instructions and optimizations keep the invariant. -/
theorem plain_buf {comp : Dev} {sem : Sem V W} {b : MoveBuffer} {u u1 v v0 : St (Placed V) (W × Placement)} (h : Buf b u v)
    (hv : reaches (placed comp sem) b.result v0 = some v) {i : Instr} (hi : i.Plain ∨ i.isOptimize = true) {U : Ref → Prop}
    (hU : ∀ k x, Dict.get b.pending k = some x → U k) (hk : ∀ ts, i = .delete ts → ∀ t ∈ ts, ¬ U t) {o : Option (Out (Placed V))}
    (he : exec (placed comp sem) i u = .ok (u1, o)) :
    ∃ v' v1, reaches (placed comp sem) (i.uses.foldl MoveBuffer.flush b).result v0 = some v' ∧ exec (placed comp sem) i v' = .ok (v1, o) ∧
      Buf (b.step comp i) u1 v1 ∧ (∀ k x, Dict.get (b.step comp i).pending k = some x → U k ∧ k ∉ i.uses) ∧
      (∀ id, u.reg (.node id) = none → Dict.get b.refDev (.node id) = none →
        u1.reg (.node id) = none ∧ Dict.get (b.step comp i).refDev (.node id) = none) := by
  obtain ⟨v', h1, h2, h3, h4, _⟩ := flush_all h hv i.uses
  have hstep := step_plain (comp := comp) (b := b) hi
  generalize hb' : i.uses.foldl MoveBuffer.flush b = b' at *
  have hflushed := uses_flushed h2 h3
  have hsub : ∀ k x, Dict.get b'.pending k = some x → U k := by
    intro k x hg
    rw [h3] at hg
    split_ifs at hg
    exact hU k x hg
  have hattr : ∀ r a, Dict.get b'.pending (.attr r a) = none := by
    intro r a
    cases hg : Dict.get b'.pending (.attr r a) with
    | none => rfl
    | some x =>
      obtain ⟨d, r0⟩ := x
      obtain ⟨_, _, hun, _⟩ := h2.pend _ _ _ hg
      exact absurd hun (unwrap_ne_attr r _ a)
  have hch : ∀ r ∈ i.changes, Dict.get b'.pending r = none := by
    intro r hr
    rcases hi with hi | hi
    · cases i with
      | store t cs => exact hflushed r (by simpa [Instr.uses, Instr.changes] using hr)
      | load s t a =>
        have hi : t = .attr s a := hi
        simp only [Instr.changes, List.mem_singleton] at hr
        rw [hr, hi]
        exact hattr s a
      | delete ts =>
        cases hg : Dict.get b'.pending r with
        | none => rfl
        | some x => exact absurd (hsub r x hg) (hk ts rfl r hr)
      | ret outs => simp [Instr.changes] at hr
      | moveModule t m => simp [Instr.changes] at hr
      | call m im args kwargs t cs => exact absurd hi id
      | optimize m args kwargs d => exact absurd hi id
      | moveAct d r => exact absurd hi id
    · rw [opt_changes hi] at hr; simp at hr
  have htouch : ∀ r ∈ i.touches, Dict.get b'.pending r = none := by
    intro r hr
    simp only [Instr.touches, List.mem_append] at hr
    rcases hr with hr | hr
    · exact hflushed r hr
    · apply hch
      rcases hi with hi | hi
      · exact plain_produces hi hr
      · rw [opt_produces hi] at hr; simp at hr
  obtain ⟨v1, g1, g2, g3, g4, g5⟩ := emit_instr h2 htouch hch he
  refine ⟨v', v1, h1, g1, ?_, ?_, ?_⟩
  · rw [hstep]
    refine ⟨g2, ?_, g3, ?_, h2.nodup⟩
    · intro r d r0 hg
      obtain ⟨e1, e2⟩ := g4 r d r0 hg
      rw [e1, e2]
      exact h2.pend r d r0 hg
    · intro r d hg
      obtain ⟨e1, e2, e3⟩ := h2.dev r d hg
      refine ⟨e1, e2, ?_⟩
      by_cases hr : r ∈ i.changes
      · rcases hi with hi | hi
        · cases i with
          | store t cs =>
            obtain ⟨k, rfl⟩ := hi
            simp only [Instr.changes, List.mem_singleton] at hr
            exact absurd hr (e1 k)
          | load s t a =>
            have hi : t = .attr s a := hi
            simp only [Instr.changes, List.mem_singleton] at hr
            rw [hr, hi] at e2
            exact absurd e2 (unwrap_ne_attr s _ a)
          | delete ts =>
            simp only [exec, Except.ok.injEq, Prod.mk.injEq] at g1
            obtain ⟨rfl, _⟩ := g1
            intro s hs
            simp only [foldl_delete, show r ∈ ts from hr, if_true] at hs
            simp at hs
          | ret outs => simp [Instr.changes] at hr
          | moveModule t m => simp [Instr.changes] at hr
          | call m im args kwargs t cs => exact absurd hi id
          | optimize m args kwargs d => exact absurd hi id
          | moveAct d r => exact absurd hi id
        · rw [opt_changes hi] at hr; simp at hr
      · rw [g5 r hr]; exact e3
  · intro k x hg
    rw [hstep] at hg
    refine ⟨hsub k x hg, ?_⟩
    intro hku
    rw [hflushed k hku] at hg
    simp at hg
  · intro nid hnone hdev
    constructor
    · by_cases hr : Ref.node nid ∈ i.changes
      · rcases hi with hi | hi
        · cases i with
          | store t cs =>
            obtain ⟨k, rfl⟩ := hi
            simp [Instr.changes] at hr
          | load s t a =>
            have hi : t = .attr s a := hi
            simp [Instr.changes, hi] at hr
          | delete ts =>
            simp only [exec, Except.ok.injEq, Prod.mk.injEq] at he
            obtain ⟨rfl, _⟩ := he
            simp only [foldl_delete, show Ref.node nid ∈ ts from hr, if_true]
          | ret outs => simp [Instr.changes] at hr
          | moveModule t m => simp [Instr.changes] at hr
          | call m im args kwargs t cs => exact absurd hi id
          | optimize m args kwargs d => exact absurd hi id
          | moveAct d r => exact absurd hi id
        · rw [opt_changes hi] at hr; simp at hr
      · rw [exec_frame he hr, hnone]
    · rw [hstep]
      simp only
      rw [h4 _ ?_, hdev]
      cases hg : Dict.get b.pending (.node nid) with
      | none => rfl
      | some x =>
        obtain ⟨d, r0⟩ := x
        obtain ⟨_, _, _, s, _, _, hs⟩ := h.pend _ _ _ hg
        rw [hnone] at hs
        simp at hs

/-! ### Calls -/

theorem infer_call {comp : Dev} {b : MoveBuffer} {m : ℕ} {im : Bool} {args : List Ref} {kwargs : List (String × Ref)} {t : Ref} {cs : List Ctx}
    (ht : t.unwrap = t) (hd : ∀ a ∈ args, ∀ d, Dict.get b.refDev a.unwrap = some d → d = comp) :
    (b.infer comp (.call m im args kwargs t cs)).pending = b.pending ∧ (b.infer comp (.call m im args kwargs t cs)).result = b.result ∧
    ((b.infer comp (.call m im args kwargs t cs)).refDev = b.refDev ∨
      (b.infer comp (.call m im args kwargs t cs)).refDev = Dict.set b.refDev t comp) := by
  cases im with
  | true => refine ⟨rfl, rfl, Or.inr ?_⟩; simp only [MoveBuffer.infer, ht]
  | false =>
    simp only [MoveBuffer.infer]
    split
    · rename_i d hdv
      refine ⟨rfl, rfl, Or.inr ?_⟩
      have hmem : d ∈ b.argDevs args := by rw [hdv]; simp
      unfold MoveBuffer.argDevs at hmem
      rw [mem_dedupe, List.mem_filterMap] at hmem
      obtain ⟨⟨a, ha, hg⟩, _⟩ := hmem
      simp only [ht, hd a ha d hg]
    · exact ⟨rfl, rfl, Or.inl rfl⟩

theorem not_pending {b : MoveBuffer} {u v : St (Placed V) (W × Placement)} (h : Buf b u v) {r : Ref} (hr : u.reg r = none) :
    Dict.get b.pending r = none := by
  cases hg : Dict.get b.pending r with
  | none => rfl
  | some x =>
    obtain ⟨d, r0⟩ := x
    obtain ⟨_, _, _, s, _, _, hs⟩ := h.pend _ _ _ hg
    rw [hr] at hs
    simp at hs

/-- The moves before a call or an optimization. -/
theorem acts_buf {comp : Dev} {sem : Sem V W} {b : MoveBuffer} {u u1 v : St (Placed V) (W × Placement)} (h : Buf b u v) {i : Instr}
    (hun : ∀ r ∈ i.uses, r.unwrap = r) (he : reaches (placed comp sem) (actsBefore comp i) u = some u1) :
    let b1 := (actsBefore comp i).foldl (MoveBuffer.step comp) b
    Buf b1 u1 v ∧ b1.result = b.result ∧ b1.refDev = b.refDev ∧
      (∀ k, Dict.get b1.pending k = if k ∈ i.uses.filter (fun r => !r.constBase) then some (comp, k) else Dict.get b.pending k) ∧
      (∀ k, u.reg k = none → u1.reg k = none) := by
  obtain ⟨h1, h2, h3, h4, _, h5⟩ := buffer_moves comp (i.uses.filter fun r => !r.constBase) (by
    intro r hr
    rw [List.mem_filter] at hr
    exact ⟨notConst_of_base (by simpa using hr.2), hun r hr.1⟩) h he
  exact ⟨h1, h2, h3, h4, h5⟩

theorem constBase_iff {r : Ref} (h : r.unwrap = r) (hn : r.NotConst) : r.constBase = false := by
  unfold Ref.constBase
  rw [h]
  cases r with
  | const k => exact absurd rfl (hn k)
  | _ => rfl

/-- A call, after the moves of what it uses, and the move of its result. -/
theorem call_buf {comp stor : Dev} {sem : Sem V W} {b : MoveBuffer} {u u1 u2 u3 v v0 : St (Placed V) (W × Placement)} (h : Buf b u v)
    (hv : reaches (placed comp sem) b.result v0 = some v) {m : ℕ} {im : Bool} {args : List Ref} {kwargs : List (String × Ref)} {nid : ℕ}
    {cs : List Ctx} (hun : ∀ r ∈ args ++ kwargs.map (·.2), r.unwrap = r) (hfresh : u.reg (.node nid) = none)
    (hdev : Dict.get b.refDev (.node nid) = none)
    (he1 : reaches (placed comp sem) (actsBefore comp (.call m im args kwargs (.node nid) cs)) u = some u1)
    (he2 : exec (placed comp sem) (.call m im args kwargs (.node nid) cs) u1 = .ok (u2, none))
    (he3 : exec (placed comp sem) (.moveAct stor (.node nid)) u2 = .ok (u3, none)) :
    let i := Instr.call m im args kwargs (.node nid) cs
    let b' := (actsBefore comp i ++ [i, .moveAct stor (.node nid)]).foldl (MoveBuffer.step comp) b
    ∃ v', reaches (placed comp sem) b'.result v0 = some v' ∧ Buf b' u3 v' ∧
      (∀ k x, Dict.get b'.pending k = some x → k = .node nid ∨ (∃ x', Dict.get b.pending k = some x') ∧ k ∉ i.uses) ∧
      (∀ k, k ≠ .node nid → u.reg k = none → Dict.get b.refDev k = none → u3.reg k = none ∧ Dict.get b'.refDev k = none) := by
  intro i b'
  have huses : ∀ r ∈ i.uses, r.unwrap = r := hun
  obtain ⟨h1, h2, h3, h4, h5⟩ := acts_buf h huses he1
  simp only [b', List.foldl_append, List.foldl_cons, List.foldl_nil]
  generalize hb1 : (actsBefore comp i).foldl (MoveBuffer.step comp) b = b1 at *
  obtain ⟨v', f1, f2, f3, f4, f5⟩ := flush_all h1 (by rw [h2]; exact hv) i.uses
  have hstep : b1.step comp i = MoveBuffer.infer comp { i.uses.foldl MoveBuffer.flush b1 with result := (i.uses.foldl MoveBuffer.flush b1).result ++ [i] } i := rfl
  have hflushed := uses_flushed f2 f3
  generalize hb2 : i.uses.foldl MoveBuffer.flush b1 = b2 at *
  have hfresh1 : u1.reg (.node nid) = none := h5 _ hfresh
  have hnp1 : Dict.get b1.pending (.node nid) = none := not_pending h1 hfresh1
  have hnp2 : Dict.get b2.pending (.node nid) = none := not_pending f2 hfresh1
  have hdev2 : Dict.get b2.refDev (.node nid) = none := by rw [f4 _ hnp1, h3]; exact hdev
  have harg : ∀ a ∈ args, ∀ d, Dict.get b2.refDev a.unwrap = some d → d = comp := by
    intro a ha d hd
    have hau : a ∈ i.uses := List.mem_append.2 (Or.inl ha)
    have haun := huses a hau
    rw [haun] at hd
    obtain ⟨hn, _, _⟩ := f2.dev _ _ hd
    have hcb := constBase_iff haun hn
    have hp : Dict.get b1.pending a = some (comp, a) := by
      rw [h4, if_pos]
      rw [List.mem_filter]
      exact ⟨hau, by simp [hcb]⟩
    have := f5 a (List.mem_map.2 ⟨a, hau, haun⟩) comp a hp
    rw [this] at hd
    exact (Option.some.inj hd).symm
  have hch : ∀ r ∈ i.changes, Dict.get b2.pending r = none := by
    intro r hr
    simp only [i, Instr.changes, List.mem_singleton] at hr
    rw [hr]; exact hnp2
  obtain ⟨v1, g1, g2, g3, g4, g5⟩ := emit_instr f2 (by
    intro r hr
    simp only [Instr.touches, List.mem_append] at hr
    rcases hr with hr | hr
    · exact hflushed r hr
    · simp only [i, Instr.produces, List.mem_singleton] at hr
      rw [hr]; exact hnp2) hch he2
  obtain ⟨q1, q2, q3⟩ := infer_call (comp := comp) (b := { b2 with result := b2.result ++ [i] }) (m := m) (im := im) (args := args)
    (kwargs := kwargs) (t := .node nid) (cs := cs) rfl harg
  have hv1 : reaches (placed comp sem) (b1.step comp i).result v0 = some v1 := by
    rw [hstep, q2]
    simp only
    rw [reaches_append, f1, Option.bind_some, reaches_cons g1]
    rfl
  have hbuf : Buf (b1.step comp i) u2 v1 := by
    rw [hstep]
    refine ⟨g2, ?_, ?_, ?_, ?_⟩
    · intro r d r0 hg
      rw [q1] at hg
      obtain ⟨e1, e2⟩ := g4 r d r0 hg
      rw [e1, e2]
      exact f2.pend r d r0 hg
    · intro r hg
      rw [q1] at hg
      exact g3 r hg
    · have hold : ∀ r d, r ≠ .node nid → Dict.get b2.refDev r = some d → r.NotConst ∧ r.unwrap = r ∧ EntryOn d (v1.reg r) := by
        intro r d hr hg
        obtain ⟨e1, e2, e3⟩ := f2.dev r d hg
        refine ⟨e1, e2, ?_⟩
        rw [g5 r (by simpa [i, Instr.changes] using hr)]
        exact e3
      intro r d hg
      rcases q3 with q3 | q3
      · rw [q3] at hg
        by_cases hr : r = .node nid
        · rw [hr] at hg; simp only at hg; rw [hdev2] at hg; simp at hg
        · exact hold r d hr hg
      · rw [q3] at hg
        simp only at hg
        rw [Dict.get_set] at hg
        by_cases hr : r = .node nid
        · rw [if_pos hr.symm] at hg
          have hd : comp = d := Option.some.inj hg
          subst hd
          subst hr
          refine ⟨by intro k; simp, rfl, ?_⟩
          simp only [i, exec] at g1
          cases hc : callAll (placed comp sem) v' m args kwargs cs with
          | error e => rw [hc] at g1; simp at g1
          | ok res =>
            rw [hc] at g1
            simp only [Except.ok.injEq, Prod.mk.injEq, and_true] at g1
            have hon := call_on_comp hc
            have hvn : v'.reg (.node nid) = none := by rw [← f2.same _ hnp2]; exact hfresh1
            intro s hs p hp
            rw [← g1] at hs
            simp only [Reg.storeAll, if_true, hvn, Option.getD_none] at hs
            obtain rfl := Option.some.inj hs
            obtain ⟨c, x⟩ := p
            have hp' : (c, x) ∈ Streams.setAll ([] : Streams (Placed V)) res := hp
            rcases mem_setAll hp' with hp | hp
            · exact hon _ hp
            · simp at hp
        · rw [if_neg (Ne.symm hr)] at hg
          exact hold r d hr hg
    · rw [q1]; exact f2.nodup
  have hpend2 : ∀ k x, Dict.get (b1.step comp i).pending k = some x → (∃ x', Dict.get b.pending k = some x') ∧ k ∉ i.uses := by
    intro k x hg
    rw [hstep, q1] at hg
    simp only at hg
    have hku : k ∉ i.uses := fun hku => by rw [hflushed k hku] at hg; simp at hg
    refine ⟨?_, hku⟩
    rw [f3] at hg
    split_ifs at hg
    rw [h4, if_neg (fun hm => hku (List.mem_filter.1 hm).1)] at hg
    exact ⟨x, hg⟩
  obtain ⟨r1, r2, r3, r4⟩ := buffer_move hbuf (r := .node nid) (by intro k; simp) rfl he3
  refine ⟨v1, by rw [r2]; exact hv1, r1, ?_, ?_⟩
  · intro k x hg
    rw [r4] at hg
    by_cases hk : k = .node nid
    · exact Or.inl hk
    · rw [if_neg hk] at hg
      exact Or.inr (hpend2 k x hg)
  · intro k hk hkn hkd
    have hk1 := h5 k hkn
    constructor
    · rw [exec_frame he3 (by simpa [Instr.changes] using hk), exec_frame he2 (by simpa [Instr.changes] using hk), hk1]
    · rw [r3, hstep]
      have hb2d : Dict.get b2.refDev k = none := by rw [f4 k (not_pending h1 hk1), h3]; exact hkd
      rcases q3 with q3 | q3
      · rw [q3]; exact hb2d
      · rw [q3]
        simp only
        rw [Dict.get_set_ne _ _ (Ne.symm hk)]
        exact hb2d

/-! ### The whole program -/

theorem finish_run {comp : Dev} {sem : Sem V W} {b : MoveBuffer} {u v v0 : St (Placed V) (W × Placement)} (h : Buf b u v)
    (hv : reaches (placed comp sem) b.result v0 = some v) :
    ∃ vf, run (placed comp sem) (finish b) v0 = (vf, .ok none) ∧ vf.w = u.w := by
  have key : ∀ (l : List (Ref × Dev × Ref)) (v : St (Placed V) (W × Placement)),
      (∀ p ∈ l, ∃ s, v.reg p.2.2 = some s ∧ ∀ q ∈ s, q.2 ≠ Cell.constObj) →
      ∃ v', reaches (placed comp sem) (l.map fun p => .moveAct p.2.1 p.2.2) v = some v' ∧ v'.w = v.w := by
    intro l
    induction l with
    | nil => intro v _; exact ⟨v, rfl, rfl⟩
    | cons p l ih =>
      intro v hl
      obtain ⟨s, hs, hd⟩ := hl p (by simp)
      rw [List.map_cons, reaches_cons (exec_moveAct comp sem p.2.1 p.2.2 v s hs hd)]
      obtain ⟨v', h1, h2⟩ := ih ⟨v.w, fun r' => if r' = p.2.2 then some (movedStreams p.2.1 s) else v.reg r'⟩ (by
        intro q hq
        obtain ⟨s', hs', hd'⟩ := hl q (by simp [hq])
        by_cases hqp : q.2.2 = p.2.2
        · refine ⟨movedStreams p.2.1 s, by simp [hqp], ?_⟩
          intro x hx
          unfold movedStreams at hx
          obtain ⟨y, hy, rfl⟩ := List.mem_map.1 hx
          have := hd y hy
          cases hy2 : y.2 with
          | constObj => exact absurd hy2 this
          | data vs => simp [Cell.onto]
        · exact ⟨s', by simp [hqp, hs'], hd'⟩)
      exact ⟨v', h1, h2⟩
  obtain ⟨v', h1, h2⟩ := key (b.pending.filter fun p => Dict.get b.refDev p.2.2.unwrap ≠ some p.2.1) v (by
    rintro ⟨k, d, r⟩ hp
    rw [List.mem_filter] at hp
    have hg := (Dict.get_eq_some_iff h.nodup).2 hp.1
    obtain ⟨rfl, _, _, s, hs1, hs2, _⟩ := h.pend _ _ _ hg
    exact ⟨s, hs1, hs2⟩)
  refine ⟨v', ?_, by rw [h2, h.w]⟩
  unfold finish
  rw [run_append hv]
  exact run_of_reaches h1

theorem acts_noret (comp : Dev) (i : Instr) (outs : List Ref) : Instr.ret outs ∉ actsBefore comp i := by
  intro h
  unfold actsBefore at h
  obtain ⟨r, _, h⟩ := List.mem_map.1 h
  simp at h

theorem targets_acts (comp : Dev) (i : Instr) (E : List Instr) : targets (actsBefore comp i ++ E) = targets E := by
  unfold targets
  rw [List.flatMap_append]
  have : (actsBefore comp i).flatMap Instr.target? = [] := by
    rw [List.flatMap_eq_nil_iff]
    intro x hx
    unfold actsBefore at hx
    obtain ⟨r, _, rfl⟩ := List.mem_map.1 hx
    rfl
  rw [this]; rfl

theorem exec_cases {sem : Sem V W} {i : Instr} {E : List Instr} {u uf : St V W} {o : Option (Out V)} (h : run sem (i :: E) u = (uf, .ok o)) :
    (∃ u1, exec sem i u = .ok (u1, none) ∧ run sem E u1 = (uf, .ok o)) ∨ ∃ out, exec sem i u = .ok (uf, some out) ∧ o = some out := by
  simp only [run] at h
  cases he : exec sem i u with
  | error e => rw [he] at h; simp at h
  | ok x =>
    obtain ⟨u1, o1⟩ := x
    rw [he] at h
    cases o1 with
    | none => left; exact ⟨u1, rfl, h⟩
    | some out =>
      right
      simp only [Prod.mk.injEq, Except.ok.injEq] at h
      obtain ⟨rfl, rfl⟩ := h
      exact ⟨out, rfl, rfl⟩

theorem cancel_run {comp stor : Dev} {sem : Sem V W} {E : List Instr} (hE : Blocks comp stor E) {v0 : St (Placed V) (W × Placement)} :
    ∀ (b : MoveBuffer) (u v uf : St (Placed V) (W × Placement)) (U : Ref → Prop) (o : Option (Out (Placed V))),
      reaches (placed comp sem) b.result v0 = some v → Buf b u v → (∀ k x, Dict.get b.pending k = some x → U k) → Kept U E →
      (targets E).Nodup → (∀ t ∈ targets E, (∃ id, t = .node id) ∧ u.reg t = none ∧ Dict.get b.refDev t = none) →
      run (placed comp sem) E u = (uf, .ok o) →
      ∃ vf, run (placed comp sem) (finish (E.foldl (MoveBuffer.step comp) b)) v0 = (vf, .ok o) ∧ vf.w = uf.w := by
  -- a plain instruction or an optimization, then the rest
  have one : ∀ (i : Instr) (E : List Instr), (i.Plain ∨ i.isOptimize = true) → i.pends = [] → i.target? = [] →
      (∀ (b : MoveBuffer) (u v uf : St (Placed V) (W × Placement)) (U : Ref → Prop) (o : Option (Out (Placed V))),
        reaches (placed comp sem) b.result v0 = some v → Buf b u v → (∀ k x, Dict.get b.pending k = some x → U k) → Kept U E →
        (targets E).Nodup → (∀ t ∈ targets E, (∃ id, t = .node id) ∧ u.reg t = none ∧ Dict.get b.refDev t = none) →
        run (placed comp sem) E u = (uf, .ok o) →
        ∃ vf, run (placed comp sem) (finish (E.foldl (MoveBuffer.step comp) b)) v0 = (vf, .ok o) ∧ vf.w = uf.w) →
      ∀ (b : MoveBuffer) (u v uf : St (Placed V) (W × Placement)) (U : Ref → Prop) (o : Option (Out (Placed V))),
        reaches (placed comp sem) b.result v0 = some v → Buf b u v → (∀ k x, Dict.get b.pending k = some x → U k) → Kept U (i :: E) →
        (targets (i :: E)).Nodup → (∀ t ∈ targets (i :: E), (∃ id, t = .node id) ∧ u.reg t = none ∧ Dict.get b.refDev t = none) →
        run (placed comp sem) (i :: E) u = (uf, .ok o) →
        ∃ vf, run (placed comp sem) (finish ((i :: E).foldl (MoveBuffer.step comp) b)) v0 = (vf, .ok o) ∧ vf.w = uf.w := by
    intro i E hi hpd htg ih b u v uf U o hv hb hU hK hn hf hr
    have htE : targets (i :: E) = targets E := by simp [targets, htg]
    rw [htE] at hn hf
    rcases exec_cases hr with ⟨u1, he, hr⟩ | ⟨out, he, rfl⟩
    · obtain ⟨v', v1, h1, h2, h3, h4, h5⟩ := plain_buf hb hv hi hU hK.1 he
      refine ih (b.step comp i) u1 v1 uf _ o ?_ h3 ?_ hK.2 hn ?_ hr
      · rw [step_plain hi]
        simp only
        rw [reaches_append, h1, Option.bind_some, reaches_cons h2]
        rfl
      · intro k x hg
        exact Or.inr (h4 k x hg)
      · intro t ht
        obtain ⟨⟨id, rfl⟩, h6, h7⟩ := hf t ht
        exact ⟨⟨id, rfl⟩, h5 id h6 h7⟩
    · obtain ⟨v', v1, h1, h2, h3, _, _⟩ := plain_buf hb hv hi hU hK.1 he
      refine ⟨v1, ?_, h3.w.symm⟩
      obtain ⟨rest, hrest⟩ := finish_append comp E (b.step comp i)
      unfold finish
      rw [List.foldl_cons, hrest, step_plain hi]
      simp only [List.append_assoc]
      rw [run_append h1, List.singleton_append, run, h2]
  induction hE with
  | nil =>
    intro b u v uf U o hv hb _ _ _ _ hr
    simp only [run, Prod.mk.injEq, Except.ok.injEq] at hr
    obtain ⟨rfl, rfl⟩ := hr
    exact finish_run hb hv
  | plain i E hi _ ih =>
    refine one i E (Or.inl hi) ?_ ?_ ih
    · cases i <;> first | rfl | exact absurd hi id
    · cases i <;> first | rfl | exact absurd hi id
  | optimize m args kwargs d E hun _ ih =>
    intro b u v uf U o hv hb hU hK hn hf hr
    rw [targets_acts] at hn hf
    obtain ⟨u1, he, hr⟩ := reaches_of_run (acts_noret comp _) hr
    obtain ⟨h1, h2, h3, h4, h5⟩ := acts_buf hb (i := .optimize m args kwargs d) hun he
    rw [List.foldl_append]
    have hK' := (kept_acts comp ((Instr.optimize m args kwargs d).uses.filter fun r => !r.constBase)).1 hK
    refine one (.optimize m args kwargs d) E (Or.inr rfl) rfl rfl ih _ u1 v uf _ o (by rw [h2]; exact hv) h1 ?_ hK' hn ?_ hr
    · intro k x hg
      rw [h4] at hg
      by_cases hk : k ∈ (Instr.optimize m args kwargs d).uses.filter fun r => !r.constBase
      · exact Or.inl hk
      · rw [if_neg hk] at hg; exact Or.inr (hU k x hg)
    · intro t ht
      obtain ⟨g1, g2, g3⟩ := hf t ht
      exact ⟨g1, h5 t g2, by rw [h3]; exact g3⟩
  | call m im args kwargs nid cs E hun _ ih =>
    intro b u v uf U o hv hb hU hK hn hf hr
    rw [targets_acts] at hn hf
    have htE : targets (.call m im args kwargs (.node nid) cs :: .moveAct stor (.node nid) :: E) = .node nid :: targets E := by
      simp [targets, Instr.target?]
    rw [htE] at hn hf
    rw [List.nodup_cons] at hn
    obtain ⟨u1, he1, hr⟩ := reaches_of_run (acts_noret comp _) hr
    rcases exec_cases hr with ⟨u2, he2, hr⟩ | ⟨out, he, _⟩
    · rcases exec_cases hr with ⟨u3, he3, hr⟩ | ⟨out, he, _⟩
      · obtain ⟨g1, g2, g3⟩ := hf _ (List.mem_cons_self)
        obtain ⟨v', c1, c2, c3, c4⟩ := call_buf hb hv hun g2 g3 he1 he2 he3
        have hfold : (actsBefore comp (.call m im args kwargs (.node nid) cs) ++
            (Instr.call m im args kwargs (.node nid) cs :: Instr.moveAct stor (.node nid) :: E)).foldl (MoveBuffer.step comp) b =
            E.foldl (MoveBuffer.step comp) ((actsBefore comp (.call m im args kwargs (.node nid) cs) ++
              [Instr.call m im args kwargs (.node nid) cs, Instr.moveAct stor (.node nid)]).foldl (MoveBuffer.step comp) b) := by
          simp only [List.foldl_append, List.foldl_cons, List.foldl_nil]
        rw [hfold]
        have hK' := (kept_acts comp ((Instr.call m im args kwargs (.node nid) cs).uses.filter fun r => !r.constBase)).1 hK
        refine ih _ u3 v' uf _ o c1 c2 ?_ hK'.2.2 hn.2 ?_ hr
        · intro k x hg
          rcases c3 k x hg with rfl | ⟨⟨x', hx'⟩, hku⟩
          · left; simp [Instr.pends]
          · by_cases hk : k = .node nid
            · left; simp [Instr.pends, hk]
            · right
              refine ⟨Or.inr ⟨Or.inr (hU k x' hx'), hku⟩, ?_⟩
              simpa [Instr.uses] using hk
        · intro t ht
          obtain ⟨e1, e2, e3⟩ := hf t (List.mem_cons_of_mem _ ht)
          have htn : t ≠ .node nid := fun h => hn.1 (h ▸ ht)
          exact ⟨e1, c4 t htn e2 e3⟩
      · obtain ⟨outs, h⟩ := ret_of_some he
        simp at h
    · obtain ⟨outs, h⟩ := ret_of_some he
      simp at h

end FF.Orch
