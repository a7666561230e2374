import Verif.Orch.ExecTotal
import Verif.Orch.ExtractProps
import Verif.Orch.ExecCases

/-! # Batches are processed independently (C77) -/

namespace FF.Orch

variable {V W : Type}

/-! ### Specification -/

/-- `v` is what a stream holds for batch `j` of `N`: its `j`-th element, or its only element, which stands for all batches. -/
def At (N j : ℕ) (d : List V) (v : V) : Prop := (d.length = N ∧ d[j]? = some v) ∨ d = [v]

/-- `inp'` is batch `j` of the inputs of the graph. -/
def BatchOf (g : Graph) (N j : ℕ) (inp inp' : String → List V) : Prop := ∀ x ∈ g.inputs, ∃ v, At N j (inp x) v ∧ inp' x = [v]

/-- Every input holds `N` batches, or one for all. -/
def Batched (g : Graph) (N : ℕ) (inp : String → List V) : Prop := ∀ x ∈ g.inputs, (inp x).length = N ∨ (inp x).length = 1

/-- Item access and attribute access by the same name do not give different results. -/
def SameByName (sem : Sem V W) : Prop := ∀ v k x y, sem.item v (.key k) = some x → sem.getattr v k = some y → x = y

/-- Whatever can be read as an item can be read as an attribute. -/
def ItemsAreAttributes (sem : Sem V W) : Prop := ∀ v k x, sem.item v (.key k) = some x → sem.getattr v k = some x

/-! ### Lemmas -/

theorem at_unique {N j : ℕ} (hj : j < N) {d : List V} {v v' : V} (h : At N j d v) (h' : At N j d v') : v = v' := by
  rcases h with ⟨h1, h2⟩ | rfl
  · rcases h' with ⟨_, h3⟩ | rfl
    · rw [h2] at h3; exact Option.some.inj h3
    · simp only [List.length_singleton] at h1
      subst h1
      obtain rfl : j = 0 := by omega
      simpa using h2.symm
  · rcases h' with ⟨h1, h2⟩ | h2
    · simp only [List.length_singleton] at h1
      subst h1
      obtain rfl : j = 0 := by omega
      simpa using h2
    · simpa using h2

theorem at_exists {N j : ℕ} (hj : j < N) {d : List V} (h : d.length = N ∨ d.length = 1) : ∃ v, At N j d v := by
  rcases h with h | h
  · exact ⟨d[j], Or.inl ⟨h, List.getElem?_eq_getElem (by omega)⟩⟩
  · obtain ⟨v, rfl⟩ := List.length_eq_one_iff.1 h
    exact ⟨v, Or.inr rfl⟩

theorem forall2_one {R : V → V → Prop} {v : V} {d : List V} (h : List.Forall₂ R [v] d) : ∃ v', d = [v'] ∧ R v v' := by
  cases h with
  | cons h1 h2 => cases h2; exact ⟨_, rfl, h1⟩

theorem at_forall2 {R : V → V → Prop} {d d' : List V} (h : List.Forall₂ R d d') {N j : ℕ} {v : V} (hv : At N j d v) :
    ∃ v', At N j d' v' ∧ R v v' := by
  rcases hv with ⟨h1, h2⟩ | rfl
  · obtain ⟨hl, hg⟩ := List.forall₂_iff_get.1 h
    have hj := (List.getElem?_eq_some_iff.1 h2).1
    have hj' : j < d'.length := by rw [← hl]; exact hj
    refine ⟨d'[j], Or.inl ⟨by rw [← hl]; exact h1, List.getElem?_eq_getElem hj'⟩, ?_⟩
    have := hg j hj hj'
    rw [(List.getElem?_eq_some_iff.1 h2).2.symm]
    exact this
  · obtain ⟨v', rfl, hr⟩ := forall2_one h
    exact ⟨v', Or.inr rfl, hr⟩

theorem access_length {sem : Sem V W} {a : Attr} {d d' : List V} (h : Access sem a d d') : d'.length = d.length := by
  cases a with
  | idx i => exact h.length_eq.symm
  | key k =>
    rcases h with h | ⟨_, h⟩ <;> exact h.length_eq.symm

theorem access_at {sem : Sem V W} (hs : SameByName sem) {a : Attr} {d d' : List V} (h : Access sem a d d') {N j : ℕ} {v : V}
    (hv : At N j d v) : ∃ v', At N j d' v' ∧ Access sem a [v] [v'] := by
  cases a with
  | idx i =>
    obtain ⟨v', h1, h2⟩ := at_forall2 h hv
    exact ⟨v', h1, .cons h2 .nil⟩
  | key k =>
    rcases h with h | ⟨_, h⟩
    · obtain ⟨v', h1, h2⟩ := at_forall2 h hv
      exact ⟨v', h1, Or.inl (.cons h2 .nil)⟩
    · obtain ⟨v', h1, h2⟩ := at_forall2 h hv
      refine ⟨v', h1, ?_⟩
      cases hi : sem.item v (.key k) with
      | none => exact Or.inr ⟨⟨v, by simp, hi⟩, .cons h2 .nil⟩
      | some x => exact Or.inl (.cons (by rw [hi, hs v k x v' hi h2]) .nil)

/-- The streams of one batch. -/
theorem call_one {sem : Sem V W} {w : W} {c : Ctx} {t nargs : ℕ} {keys : List String} {row : List V} {v : V} (hne : row ≠ [])
    (h : sem.call w c t (row.take nargs) (keys.zip (row.drop nargs)) = some v) :
    CallRel sem w c t nargs keys (row.map fun v => [v]) [v] := by
  refine Or.inr ⟨row.map fun v => [v], 1, [row], ⟨rfl, ?_, ?_⟩, ⟨by simp, by simp, ?_⟩, rfl, ?_⟩
  · obtain ⟨a, ha⟩ := List.exists_mem_of_ne_nil _ hne
    exact ⟨[a], List.mem_map.2 ⟨a, ha, rfl⟩, rfl⟩
  · intro i d o h1 h2
    rw [h1] at h2
    obtain rfl := Option.some.inj h2
    refine Or.inl ⟨?_, rfl⟩
    have := List.mem_of_getElem? h1
    obtain ⟨a, _, rfl⟩ := List.mem_map.1 this
    rfl
  · intro i j d r h1 h2
    match i with
    | 0 =>
      simp only [List.getElem?_cons_zero, Option.some.injEq] at h2
      subst h2
      rw [List.getElem?_map] at h1
      cases hr : row[j]? with
      | none => rw [hr] at h1; simp at h1
      | some a =>
        rw [hr] at h1
        simp only [Option.map_some, Option.some.injEq] at h1
        subst h1
        rfl
    | i + 1 => simp at h2
  · intro j r o h1 h2
    match j with
    | 0 =>
      simp only [List.getElem?_cons_zero, Option.some.injEq] at h1 h2
      subst h1 h2
      exact h
    | j + 1 => simp at h1

theorem call_one_inv {sem : Sem V W} {w : W} {c : Ctx} {t nargs : ℕ} {keys : List String} {row : List V} {out : List V} (hne : row ≠ [])
    (h : CallRel sem w c t nargs keys (row.map fun v => [v]) out) :
    ∃ v, out = [v] ∧ sem.call w c t (row.take nargs) (keys.zip (row.drop nargs)) = some v := by
  rcases h with ⟨h, _⟩ | ⟨al, N, rows, hal, htr, hlen, hcall⟩
  · simp [hne] at h
  · have hN : N = 1 := by
      obtain ⟨d, hd, rfl⟩ := hal.2.1
      obtain ⟨a, _, rfl⟩ := List.mem_map.1 hd
      rfl
    subst hN
    have hal' : al = row.map fun v => [v] := by
      apply List.ext_getElem hal.1
      intro i h1 h2
      rcases hal.2.2 i _ _ (List.getElem?_eq_getElem h2) (List.getElem?_eq_getElem h1) with ⟨_, h⟩ | ⟨v, h3, h4⟩
      · exact h
      · rw [h3, h4]; rfl
    subst hal'
    have hr1 : rows.length = 1 := by
      obtain ⟨a, ha⟩ := List.exists_mem_of_ne_nil _ hne
      exact (htr.1 [a] (List.mem_map.2 ⟨a, ha, rfl⟩)).symm
    obtain ⟨r, rfl⟩ := List.length_eq_one_iff.1 hr1
    rw [hr1] at hlen
    obtain ⟨v, rfl⟩ := List.length_eq_one_iff.1 hlen
    have hrr : r = row := by
      have h1 := transposed_row htr (j := 0) (row := r) rfl
      have h2 : List.Forall₂ (fun (d : List V) v => d[0]? = some v) (row.map fun v => [v]) row := by
        rw [List.forall₂_map_left_iff]
        exact List.forall₂_same.2 fun x _ => rfl
      have : ∀ (l : List (List V)) (a b : List V), List.Forall₂ (fun (d : List V) v => d[0]? = some v) l a →
          List.Forall₂ (fun (d : List V) v => d[0]? = some v) l b → a = b := by
        intro l
        induction l with
        | nil => intro a b h1 h2; cases h1; cases h2; rfl
        | cons x l ih =>
          intro a b h1 h2
          cases h1 with
          | cons p1 q1 =>
            cases h2 with
            | cons p2 q2 =>
              rw [p1] at p2
              rw [Option.some.inj p2, ih _ _ q1 q2]
      exact this _ _ _ h1 h2
    subst hrr
    exact ⟨v, rfl, hcall 0 r v rfl rfl⟩

/-- The streams of a call, for one batch. -/
theorem call_at {sem : Sem V W} {w : W} {c : Ctx} {t nargs : ℕ} {keys : List String} {ads : List (List V)} {out : List V}
    (h : CallRel sem w c t nargs keys ads out) {N j : ℕ} (hj : j < N) (hl : ∀ d ∈ ads, d.length = N ∨ d.length = 1) :
    (out.length = N ∨ out.length = 1) ∧ ∀ row, List.Forall₂ (At N j) ads row →
      ∃ v, At N j out v ∧ CallRel sem w c t nargs keys (row.map fun v => [v]) [v] := by
  rcases h with ⟨rfl, v, hv, rfl⟩ | ⟨al, M, rows, hal, htr, hlen, hcall⟩
  · refine ⟨Or.inr rfl, fun row hr => ?_⟩
    cases hr
    exact ⟨v, Or.inr rfl, Or.inl ⟨rfl, v, hv, rfl⟩⟩
  · have hM : M = N ∨ M = 1 := by
      obtain ⟨d, hd, rfl⟩ := hal.2.1
      exact hl d hd
    have hrl : rows.length = M := by
      obtain ⟨d, hd⟩ := List.exists_mem_of_ne_nil _ (aligned_ne hal)
      rw [← htr.1 d hd, aligned_lengths hal d hd]
    have hol : out.length = M := by rw [hlen, hrl]
    refine ⟨by rw [hol]; exact hM, fun row hrow => ?_⟩
    obtain ⟨k, hkM, hk⟩ : ∃ k < M, ∀ (l : List V), l.length = M → ∀ v, l[k]? = some v → At N j l v := by
      rcases hM with rfl | rfl
      · exact ⟨j, hj, fun l h1 v h2 => Or.inl ⟨h1, h2⟩⟩
      · refine ⟨0, by omega, fun l h1 v h2 => Or.inr ?_⟩
        obtain ⟨a, rfl⟩ := List.length_eq_one_iff.1 h1
        simpa using h2
    have hkr : k < rows.length := by omega
    have hko : k < out.length := by omega
    have hc := hcall k _ _ (List.getElem?_eq_getElem hkr) (List.getElem?_eq_getElem hko)
    have hrr : rows[k] = row := by
      have h1 := transposed_row htr (List.getElem?_eq_getElem hkr)
      obtain ⟨e1, f1⟩ := List.forall₂_iff_get.1 h1
      obtain ⟨e2, f2⟩ := List.forall₂_iff_get.1 hrow
      apply List.ext_getElem (by rw [← e1, ← e2, hal.1])
      intro i i1 i2
      have ia : i < al.length := by omega
      have id : i < ads.length := by omega
      have g1 := f1 i ia i1
      have g2 := f2 i id i2
      simp only [List.get_eq_getElem] at g1 g2
      refine at_unique hj ?_ g2
      rcases hal.2.2 i _ _ (List.getElem?_eq_getElem id) (List.getElem?_eq_getElem ia) with ⟨h3, h4⟩ | ⟨v, h3, h4⟩
      · rw [h4] at g1
        exact hk _ h3 _ g1
      · rw [h3]
        right
        rw [h4] at g1
        rw [List.getElem?_replicate, if_pos hkM] at g1
        rw [Option.some.inj g1]
    refine ⟨out[k], hk out hol _ (List.getElem?_eq_getElem hko), call_one ?_ (hrr ▸ hc)⟩
    intro he
    rw [he] at hrow
    cases hrow
    obtain ⟨d, hd, _⟩ := hal.2.1
    simp at hd

theorem forall2_choose {α β γ : Type} {P : β → γ → Prop} {Q : α → γ → Prop} {l : List α} {m : List β} (hl : l.length = m.length)
    (h : ∀ (i : ℕ) (a : α) (b : β), l[i]? = some a → m[i]? = some b → ∃ c, P b c ∧ Q a c) :
    ∃ row, List.Forall₂ P m row ∧ List.Forall₂ Q l row := by
  induction l generalizing m with
  | nil =>
    obtain rfl := List.length_eq_zero_iff.1 hl.symm
    exact ⟨[], .nil, .nil⟩
  | cons a l ih =>
    cases m with
    | nil => simp at hl
    | cons b m =>
      obtain ⟨c, h1, h2⟩ := h 0 a b rfl rfl
      obtain ⟨row, h3, h4⟩ := ih (m := m) (by simpa using hl) fun i a b e1 e2 => h (i + 1) a b e1 e2
      exact ⟨c :: row, .cons h1 h3, .cons h2 h4⟩

theorem den_at {sem : Sem V W} (hs : SameByName sem) {g : Graph} {N j : ℕ} (hj : j < N) {inp inp' : String → List V} {wAt : ℕ → W}
    (hb : Batched g N inp) (hi : BatchOf g N j inp inp') {c : Ctx} {r : Ref} {d : List V} (h : Den sem g inp wAt c r d) :
    (d.length = N ∨ d.length = 1) ∧ ∃ v, At N j d v ∧ Den sem g inp' wAt c r [v] := by
  induction h with
  | @input x hx =>
    obtain ⟨v, h1, h2⟩ := hi x hx
    exact ⟨hb x hx, v, h1, h2 ▸ .input hx⟩
  | const => exact ⟨Or.inr rfl, _, Or.inr rfl, .const⟩
  | attr _ ha ih =>
    obtain ⟨h1, v, h2, h3⟩ := ih
    obtain ⟨v', h4, h5⟩ := access_at hs ha h2
    exact ⟨by rw [access_length ha]; exact h1, v', h4, .attr h3 h5⟩
  | @node id n ads out hf hl _ hc ih =>
    have hla : ∀ d ∈ ads, d.length = N ∨ d.length = 1 := by
      intro d hd
      obtain ⟨i, hi, rfl⟩ := List.getElem_of_mem hd
      exact (ih i _ _ (List.getElem?_eq_getElem (by omega)) (List.getElem?_eq_getElem hi)).1
    obtain ⟨h1, h2⟩ := call_at hc hj hla
    refine ⟨h1, ?_⟩
    have hrow := forall2_choose (P := At N j) (Q := fun r v => Den sem g inp' wAt c r [v]) hl.symm fun i r d e1 e2 => (ih i r d e1 e2).2
    obtain ⟨row, h3, h4⟩ := hrow
    obtain ⟨v, h5, h6⟩ := h2 row h3
    refine ⟨v, h5, .node hf (by rw [List.length_map]; exact h4.length_eq.symm) (fun i r d e1 e2 => ?_) h6⟩
    rw [List.getElem?_map] at e2
    cases hr : row[i]? with
    | none => rw [hr] at e2; simp at e2
    | some a =>
      rw [hr] at e2
      simp only [Option.map_some, Option.some.injEq] at e2
      subst e2
      obtain ⟨_, hg⟩ := List.forall₂_iff_get.1 h4
      obtain ⟨p1, q1⟩ := List.getElem?_eq_some_iff.1 e1
      obtain ⟨p2, q2⟩ := List.getElem?_eq_some_iff.1 hr
      have := hg i p1 p2
      simp only [List.get_eq_getElem, q1, q2] at this
      exact this

theorem access_all {sem : Sem V W} (hs : ItemsAreAttributes sem) {a : Attr} {d : List V} (h : ∀ v ∈ d, ∃ v', Access sem a [v] [v']) :
    ∃ d', Access sem a d d' := by
  have gen : ∀ (R : V → V → Prop) (l : List V), (∀ v ∈ l, ∃ v', R v v') → ∃ l', List.Forall₂ R l l' := by
    intro R l
    induction l with
    | nil => intro _; exact ⟨[], .nil⟩
    | cons v l ih =>
      intro h
      obtain ⟨v', h1⟩ := h v (by simp)
      obtain ⟨l', h2⟩ := ih fun x hx => h x (by simp [hx])
      exact ⟨v' :: l', .cons h1 h2⟩
  cases a with
  | idx i =>
    refine gen _ d fun v hv => ?_
    obtain ⟨v', h1⟩ := h v hv
    cases h1 with
    | cons h1 _ => exact ⟨v', h1⟩
  | key k =>
    by_cases hall : ∀ v ∈ d, ∃ v', sem.item v (.key k) = some v'
    · obtain ⟨d', h1⟩ := gen _ d hall
      exact ⟨d', Or.inl h1⟩
    · simp only [not_forall] at hall
      obtain ⟨v0, h0, hn⟩ := hall
      have hnone : sem.item v0 (.key k) = none := by
        cases hi : sem.item v0 (.key k) with
        | none => rfl
        | some x => exact absurd ⟨x, hi⟩ hn
      obtain ⟨d', h1⟩ := gen (fun v v' => sem.getattr v k = some v') d fun v hv => by
        obtain ⟨v', h1 | ⟨_, h1⟩⟩ := h v hv
        · cases h1 with
          | cons h1 _ => exact ⟨v', hs v k v' h1⟩
        · cases h1 with
          | cons h1 _ => exact ⟨v', h1⟩
      exact ⟨d', Or.inr ⟨⟨v0, h0, hnone⟩, h1⟩⟩

/-- Streams that hold `N` batches, or one for all, can be aligned. -/
theorem call_all {sem : Sem V W} {w : W} {c : Ctx} {t nargs : ℕ} {keys : List String} {ads : List (List V)} {N : ℕ} (hN : 0 < N)
    (hl : ∀ d ∈ ads, d.length = N ∨ d.length = 1)
    (h : ∀ j < N, ∀ row, List.Forall₂ (At N j) ads row → ∃ v, CallRel sem w c t nargs keys (row.map fun v => [v]) [v]) :
    ∃ out, CallRel sem w c t nargs keys ads out := by
  by_cases hne : ads = []
  · subst hne
    obtain ⟨v, h1⟩ := h 0 hN [] .nil
    exact ⟨_, h1⟩
  obtain ⟨al, M, hal⟩ : ∃ al M, Aligned ads al M := by
    rcases broadcast_cases ads with ⟨h, _⟩ | ⟨o, M, _, h2⟩ | ⟨_, d, hd, d', hd', h1, h2, h3⟩
    · exact absurd h hne
    · exact ⟨o, M, h2⟩
    · have e1 := (hl d hd).resolve_right h2
      have e2 := (hl d' hd').resolve_right h3
      omega
  have hM : M = N ∨ M = 1 := by
    obtain ⟨d, hd, rfl⟩ := hal.2.1
    exact hl d hd
  obtain ⟨rows, htr, hrl⟩ := exists_rows (aligned_lengths hal) (aligned_ne hal)
  have hrow : ∀ k (hk : k < rows.length), ∃ v, sem.call w c t (rows[k].take nargs) (keys.zip (rows[k].drop nargs)) = some v := by
    intro k hk
    obtain ⟨j, hj, hkj⟩ : ∃ j < N, ∀ (l : List V), l.length = M → ∀ v, l[k]? = some v → At N j l v := by
      rcases hM with rfl | rfl
      · exact ⟨k, by omega, fun l h1 v h2 => Or.inl ⟨h1, h2⟩⟩
      · refine ⟨0, hN, fun l h1 v h2 => Or.inr ?_⟩
        obtain ⟨a, rfl⟩ := List.length_eq_one_iff.1 h1
        have : k = 0 := by omega
        subst this
        simpa using h2
    have hat : List.Forall₂ (At N j) ads rows[k] := by
      have h1 := transposed_row htr (List.getElem?_eq_getElem hk)
      obtain ⟨e1, f1⟩ := List.forall₂_iff_get.1 h1
      refine List.forall₂_iff_get.2 ⟨by rw [← e1, hal.1], fun i i1 i2 => ?_⟩
      have ia : i < al.length := by omega
      have g1 := f1 i ia i2
      simp only [List.get_eq_getElem] at g1 ⊢
      rcases hal.2.2 i _ _ (List.getElem?_eq_getElem i1) (List.getElem?_eq_getElem ia) with ⟨h3, h4⟩ | ⟨v, h3, h4⟩
      · rw [h4] at g1
        exact hkj _ h3 _ g1
      · rw [h3]
        right
        rw [h4, List.getElem?_replicate, if_pos (by omega)] at g1
        rw [Option.some.inj g1]
    obtain ⟨v, h1⟩ := h j hj _ hat
    have hne2 : rows[k] ≠ [] := by
      intro he
      rw [he] at hat
      cases hat
      exact hne rfl
    obtain ⟨v', _, h2⟩ := call_one_inv hne2 h1
    exact ⟨v', h2⟩
  have hout : ∃ out : List V, out.length = rows.length ∧ ∀ k (hk : k < rows.length) (ho : k < out.length),
      sem.call w c t (rows[k].take nargs) (keys.zip (rows[k].drop nargs)) = some out[k] := by
    clear hrl htr
    induction rows with
    | nil => exact ⟨[], rfl, fun k hk => by simp at hk⟩
    | cons r rows ih =>
      obtain ⟨v, h1⟩ := hrow 0 (by simp)
      obtain ⟨out, h2, h3⟩ := ih fun k hk => hrow (k + 1) (by simpa using hk)
      refine ⟨v :: out, by simp [h2], fun k hk ho => ?_⟩
      match k with
      | 0 => exact h1
      | k + 1 => exact h3 k (by simpa using hk) (by simpa using ho)
  obtain ⟨out, ho, hcall⟩ := hout
  refine ⟨out, Or.inr ⟨al, M, rows, hal, htr, ho, fun j row v h1 h2 => ?_⟩⟩
  obtain ⟨p1, q1⟩ := List.getElem?_eq_some_iff.1 h1
  obtain ⟨p2, q2⟩ := List.getElem?_eq_some_iff.1 h2
  rw [← q1, ← q2]
  exact hcall j p1 p2

theorem den_all {sem : Sem V W} (hs : ItemsAreAttributes sem) {g : Graph} {N : ℕ} (hN : 0 < N) {inp : String → List V}
    {inps : ℕ → String → List V} {wAt : ℕ → W} (hb : Batched g N inp) (hi : ∀ j < N, BatchOf g N j inp (inps j)) {c : Ctx} {r : Ref}
    (h : ∀ j < N, ∃ d, Den sem g (inps j) wAt c r d) : ∃ d, Den sem g inp wAt c r d := by
  have hsame : SameByName sem := fun v k x y h1 h2 => by
    rw [hs v k x h1] at h2
    exact Option.some.inj h2
  obtain ⟨d0, h0⟩ := h 0 hN
  induction h0 with
  | input hx => exact ⟨_, .input hx⟩
  | const => exact ⟨_, .const⟩
  | @attr r a d d' _ _ ih =>
    obtain ⟨e, he⟩ := ih fun j hj => by
      obtain ⟨d, hd⟩ := h j hj
      cases hd with
      | attr h1 _ => exact ⟨_, h1⟩
    have hacc : ∀ v ∈ e, ∃ v', Access sem a [v] [v'] := by
      intro v hv
      obtain ⟨k, hk, rfl⟩ := List.getElem_of_mem hv
      have hlen := (den_at hsame hN hb (hi 0 hN) he).1
      obtain ⟨j, hj, hat⟩ : ∃ j < N, At N j e e[k] := by
        rcases hlen with hlen | hlen
        · exact ⟨k, by omega, Or.inl ⟨hlen, List.getElem?_eq_getElem hk⟩⟩
        · refine ⟨0, hN, Or.inr ?_⟩
          obtain ⟨x, rfl⟩ := List.length_eq_one_iff.1 hlen
          simp
      obtain ⟨d, hd⟩ := h j hj
      cases hd with
      | attr h1 h2 =>
        obtain ⟨_, v, h3, h4⟩ := den_at hsame hj hb (hi j hj) he
        obtain rfl := at_unique hj h3 hat
        obtain rfl := denotation_unique h1 h4
        have hl := access_length h2
        obtain ⟨v', rfl⟩ := List.length_eq_one_iff.1 hl
        exact ⟨v', h2⟩
    obtain ⟨e', he'⟩ := access_all hs hacc
    exact ⟨e', .attr he he'⟩
  | @node id n ads out hf hl _ _ ih =>
    have hargs : ∀ (i : ℕ) (r : Ref), n.allArgs[i]? = some r → ∃ d, Den sem g inp wAt c r d := by
      intro i r hr
      have hia : i < ads.length := by rw [hl]; exact (List.getElem?_eq_some_iff.1 hr).1
      refine ih i r _ hr (List.getElem?_eq_getElem hia) fun j hj => ?_
      obtain ⟨d, hd⟩ := h j hj
      cases hd with
      | @node _ n' ads' _ hf' hl' ha' _ =>
        rw [hf] at hf'
        obtain rfl := Option.some.inj hf'
        have hia' : i < ads'.length := by rw [hl', ← hl]; exact hia
        exact ⟨_, ha' i r _ hr (List.getElem?_eq_getElem hia')⟩
    obtain ⟨es, hes⟩ : ∃ es, List.Forall₂ (Den sem g inp wAt c) n.allArgs es := by
      have gen : ∀ l : List Ref, (∀ r ∈ l, ∃ d, Den sem g inp wAt c r d) → ∃ es, List.Forall₂ (Den sem g inp wAt c) l es := by
        intro l
        induction l with
        | nil => intro _; exact ⟨[], .nil⟩
        | cons r l ih =>
          intro h
          obtain ⟨d, hd⟩ := h r (by simp)
          obtain ⟨es, he⟩ := ih fun x hx => h x (by simp [hx])
          exact ⟨d :: es, .cons hd he⟩
      refine gen _ fun r hr => ?_
      obtain ⟨i, hi', rfl⟩ := List.getElem_of_mem hr
      exact hargs i _ (List.getElem?_eq_getElem hi')
    have hlen : ∀ d ∈ es, d.length = N ∨ d.length = 1 := by
      intro d hd
      obtain ⟨r, _, hr⟩ := forall2_mem hes.flip hd
      exact (den_at hsame hN hb (hi 0 hN) hr).1
    obtain ⟨out, ho⟩ := call_all (sem := sem) (w := wAt id) (c := c) (t := n.target) (nargs := n.args.length) (keys := n.kwargs.map (·.1)) hN hlen
      fun j hj row hrow => by
        obtain ⟨d, hd⟩ := h j hj
        cases hd with
        | @node _ n' ads' out' hf' hl' ha' hc' =>
          rw [hf] at hf'
          obtain rfl := Option.some.inj hf'
          have hads : ads' = row.map fun v => [v] := by
            have hle : row.length = es.length := hrow.length_eq.symm
            have hle2 := hes.length_eq
            apply List.ext_getElem (by rw [List.length_map]; omega)
            intro i i1 i2
            rw [List.getElem_map]
            have i3 : i < n.allArgs.length := by omega
            have i4 : i < es.length := by omega
            have i5 : i < row.length := by omega
            have e1 := ha' i _ _ (List.getElem?_eq_getElem i3) (List.getElem?_eq_getElem i1)
            have e2 := (List.forall₂_iff_get.1 hes).2 i i3 i4
            have e3 := (List.forall₂_iff_get.1 hrow).2 i i4 i5
            simp only [List.get_eq_getElem] at e2 e3
            obtain ⟨_, v, e4, e5⟩ := den_at hsame hj hb (hi j hj) e2
            rw [at_unique hj e3 e4]
            exact denotation_unique e1 e5
          subst hads
          by_cases hrn : row = []
          · subst hrn
            rcases hc' with ⟨_, v, h1, h2⟩ | ⟨_, _, _, hal, _⟩
            · exact ⟨v, Or.inl ⟨rfl, v, h1, rfl⟩⟩
            · obtain ⟨_, h1, _⟩ := hal.2.1
              simp at h1
          · obtain ⟨v, rfl, _⟩ := call_one_inv hrn hc'
            exact ⟨v, hc'⟩
    refine ⟨out, .node hf hes.length_eq.symm (fun i r d h1 h2 => ?_) ho⟩
    obtain ⟨p1, q1⟩ := List.getElem?_eq_some_iff.1 h1
    obtain ⟨p2, q2⟩ := List.getElem?_eq_some_iff.1 h2
    have := (List.forall₂_iff_get.1 hes).2 i p1 p2
    simp only [List.get_eq_getElem, q1, q2] at this
    exact this

/-! ### Properties -/

/-- **C77 (partial).** The value of a reference for a batch is its value when the graph is given that batch alone. Missing: batches of
which some have an item of a name and some only an attribute (`mixed_batches_differ`). -/
theorem batches_independent_partial (sem : Sem V W) (hs : SameByName sem) (g : Graph) (N j : ℕ) (hj : j < N) (inp inp' : String → List V)
    (hb : Batched g N inp) (hi : BatchOf g N j inp inp') (wAt : ℕ → W) (c : Ctx) (r : Ref) (d : List V) (h : Den sem g inp wAt c r d) :
    (d.length = N ∨ d.length = 1) ∧ ∃ v, At N j d v ∧ Den sem g inp' wAt c r [v] :=
  den_at hs hj hb hi h

/-- **C77 (partial).** Conversely, if the graph has a value for each batch alone, it has one for all of them. Missing: values with items
that are not attributes, such as dictionaries (`mixed_batches_differ`). -/
theorem batches_complete_partial (sem : Sem V W) (hs : ItemsAreAttributes sem) (g : Graph) (N : ℕ) (hN : 0 < N) (inp : String → List V)
    (inps : ℕ → String → List V) (hb : Batched g N inp) (hi : ∀ j < N, BatchOf g N j inp (inps j)) (wAt : ℕ → W) (c : Ctx) (r : Ref)
    (h : ∀ j < N, ∃ d, Den sem g (inps j) wAt c r d) : ∃ d, Den sem g inp wAt c r d :=
  den_all hs hN hb hi h

/-- **C77 (partial).** Two runs of a graph without delegates, one on all batches and one on batch `j` alone: the second returns the row
that the first returns for batch `j`. Missing: as in `batches_independent_partial`. -/
theorem runs_batch_by_batch_partial (sem : Sem V W) (hs : SameByName sem) (g : Graph) (hu : g.UniqueIds) (hn : g.inputs.Nodup)
    (order : List ℕ) (hv : ValidOrder g order) (hp : g.Plain) (ho : g.outputs ≠ [])
    (hout : ∀ r ∈ g.outputs, ∃ n ∈ g.leafIds, r.unwrap = .node n)
    (args args' : List (RawInput V)) (kwargs kwargs' : List (String × RawInput V)) (hk : (kwargs.map (·.1)).Nodup)
    (hk' : (kwargs'.map (·.1)).Nodup) (inp inp' : String → List V)
    (hinp : ∀ x v, Gives g.inputs args kwargs x v → inp x = v.dataset) (hinp' : ∀ x v, Gives g.inputs args' kwargs' x v → inp' x = v.dataset)
    (N j : ℕ) (hj : j < N) (hb : Batched g N inp) (hi : BatchOf g N j inp inp') (w w1 w2 : W) (res res' : Option (Out V))
    (h : runGraph sem g order w args kwargs = (w1, .ok res)) (h' : runGraph sem g order w args' kwargs' = (w2, .ok res')) :
    ∃ rows row, res = some [(0, rows)] ∧ res' = some [(0, [row])] ∧ At N j rows row := by
  obtain ⟨wAt, r1, _, r2⟩ := scheduled_run_denotes sem g hu hn order hv hout args kwargs hk inp hinp w w1 res h
  obtain ⟨wAt', r1', _, r2'⟩ := scheduled_run_denotes sem g hu hn order hv hout args' kwargs' hk' inp' hinp' w w2 res' h'
  obtain ⟨out, rfl, r3⟩ := r2 ho
  obtain ⟨out', rfl, r3'⟩ := r2' ho
  obtain ⟨rows, ds, rfl, hd, ht⟩ := plain_returns hp ho hout r3
  obtain ⟨rows', ds', rfl, hd', ht'⟩ := plain_returns hp ho hout r3'
  have hw : ∀ id ∈ order, wAt id = wAt' id := fun id hid => by rw [(plain_runs hp r1).2 id hid, (plain_runs hp r1').2 id hid]
  have hbase : ∀ r ∈ g.outputs, ∀ n, r.unwrap = .node n → n ∈ order := by
    intro r hr n hrn
    obtain ⟨m, hm, hrm⟩ := hout r hr
    rw [hrn] at hrm
    cases hrm
    exact hv.1.mem_iff.2 hm
  have hone : ∃ row, List.Forall₂ (At N j) ds row ∧ ds' = row.map (fun v => [v]) := by
    clear r2 r2' r3 r3' h h' ht ht' ho hout
    revert hbase
    generalize g.outputs = rs at hd hd'
    intro hbase
    induction hd generalizing ds' with
    | nil => cases hd'; exact ⟨[], .nil, rfl⟩
    | @cons r d rs ds h1 _ ih =>
      cases hd' with
      | @cons _ d' _ ds' h1' h2' =>
        obtain ⟨_, v, e1, e2⟩ := den_at hs hj hb hi h1
        obtain ⟨row, e3, rfl⟩ := ih _ h2' fun r hr => hbase r (by simp [hr])
        have e4 := den_world hv hw (hbase r (by simp)) e2
        refine ⟨v :: row, .cons e1 e3, ?_⟩
        rw [denotation_unique h1' e4]
        rfl
  obtain ⟨row, h1, rfl⟩ := hone
  have hrows' : rows' = [row] := by
    refine transposed_unique ?_ ht' ?_
    · intro he
      rw [List.map_eq_nil_iff] at he
      subst he
      cases h1
      have := hd.length_eq
      exact ho (List.length_eq_zero_iff.1 this)
    · refine ⟨by simp, by simp, fun i k d r e1 e2 => ?_⟩
      match i with
      | 0 =>
        simp only [List.getElem?_cons_zero, Option.some.injEq] at e2
        subst e2
        rw [List.getElem?_map] at e1
        cases hr : row[k]? with
        | none => rw [hr] at e1; simp at e1
        | some a =>
          rw [hr] at e1
          simp only [Option.map_some, Option.some.injEq] at e1
          subst e1
          rfl
      | i + 1 => simp at e2
  subst hrows'
  refine ⟨rows, row, rfl, rfl, ?_⟩
  have hds : ds ≠ [] := fun he => by
    subst he
    exact ho (List.length_eq_zero_iff.1 hd.length_eq)
  obtain ⟨d0, hd0⟩ := List.exists_mem_of_ne_nil _ hds
  have hlen : rows.length = N ∨ rows.length = 1 := by
    rw [← ht.1 d0 hd0]
    obtain ⟨r, _, hr⟩ := forall2_mem hd.flip hd0
    exact (den_at hs hj hb hi hr).1
  have key : ∀ (k : ℕ) (r : List V), rows[k]? = some r → (∀ (l : List V), l.length = rows.length → ∀ v, l[k]? = some v → At N j l v) → r = row := by
    intro k r hr hk
    have h2 := transposed_row ht hr
    obtain ⟨e1, f1⟩ := List.forall₂_iff_get.1 h1
    obtain ⟨e2, f2⟩ := List.forall₂_iff_get.1 h2
    apply List.ext_getElem (by omega)
    intro i i1 i2
    have i3 : i < ds.length := by omega
    have g1 := f1 i i3 i2
    have g2 := f2 i i3 i1
    simp only [List.get_eq_getElem] at g1 g2
    exact at_unique hj (hk _ (ht.1 _ (List.getElem_mem i3)) _ g2) g1
  rcases hlen with hlen | hlen
  · refine Or.inl ⟨hlen, ?_⟩
    have hjr : j < rows.length := by omega
    rw [List.getElem?_eq_getElem hjr, key j _ (List.getElem?_eq_getElem hjr) fun l h1 v h2 => Or.inl ⟨by omega, h2⟩]
  · obtain ⟨r, rfl⟩ := List.length_eq_one_iff.1 hlen
    refine Or.inr ?_
    rw [key 0 r rfl fun l h1 v h2 => Or.inr ?_]
    obtain ⟨a, rfl⟩ := List.length_eq_one_iff.1 h1
    simpa using h2

/-! ### Deviations -/

/-- Values with an item, an attribute, or both: `0` has the item `1`, `1` the attribute `2`, and `2` the item `3` and the attribute `4`. -/
def itemSem : Sem ℕ ℕ where
  constVal k := k
  item v a := if a = .key "y" then (match v with | 0 => some 1 | 2 => some 3 | _ => none) else none
  getattr v k := if k = "y" then (match v with | 1 => some 2 | 2 => some 4 | _ => none) else none
  call _ _ _ args _ := args.head?
  optimize w _ _ _ := some w
  move _ v := v
  moveModule w _ _ := w

/-- One node, called on `x.y`. -/
def readsY : Graph where
  nodes := [{ id := 1, name := "n", target := 0, isModule := true, args := [.attr (.input "x") (.key "y")], kwargs := [] }]
  inputs := ["x"]
  outputs := [.node 1]

/-- **C77, deviation.** If one batch has no item `y`, the attribute `y` is read for all: a batch that has both gives another value than
alone (`4` instead of `3`), and one that has the item only makes the run fail, although each batch alone has a value. -/
theorem mixed_batches_differ :
    (runGraph itemSem readsY [1] 0 [.batches [2, 1]] []).2 = .ok (some [(0, [[4], [2]])]) ∧
    (runGraph itemSem readsY [1] 0 [.batches [2]] []).2 = .ok (some [(0, [[3]])]) ∧
    (∃ e, (runGraph itemSem readsY [1] 0 [.batches [0, 1]] []).2 = .error e) ∧
    (runGraph itemSem readsY [1] 0 [.batches [0]] []).2 = .ok (some [(0, [[1]])]) ∧
    (runGraph itemSem readsY [1] 0 [.batches [1]] []).2 = .ok (some [(0, [[2]])]) := by
  refine ⟨by decide +kernel, by decide +kernel, ⟨_, rfl⟩, by decide +kernel, by decide +kernel⟩

/-! ### Concrete cases -/

example : SameByName toySem ∧ ItemsAreAttributes toySem :=
  ⟨fun v k x y h => by simp [toySem] at h, fun v k x h => by simp [toySem] at h⟩

example : Batched diamond 3 (fun _ => [[1], [2], [3]]) ∧ BatchOf diamond 3 1 (fun _ => [[1], [2], [3]]) (fun _ => [[2]]) :=
  ⟨fun _ _ => Or.inl rfl, fun _ _ => ⟨[2], Or.inl ⟨rfl, rfl⟩, rfl⟩⟩

example : (runGraph toySem diamond [0, 1, 2, 3] 7 [.batches [[1], [2], [3]]] []).2 =
    .ok (some [(0, [[[8, 8, 5, 16, 10]], [[9, 9, 5, 18, 10]], [[10, 10, 5, 20, 10]]])]) := by decide +kernel

example : (runGraph toySem diamond [0, 1, 2, 3] 7 [.batches [[2]]] []).2 = .ok (some [(0, [[[9, 9, 5, 18, 10]]])]) := by decide +kernel

end FF.Orch
