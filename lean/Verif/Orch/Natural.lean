import Verif.Orch.Engine
import Verif.Orch.BindProps
import Mathlib.Data.List.Basic

/-! # The engine does not look into values

What the engine does with datasets (broadcasting, selecting batches, merging outputs) commutes with a change of values.
-/

namespace FF.Orch

variable {A B WA WB : Type} (f : A → B)

def Cell.map : Cell A → Cell B
  | .data d => .data (d.map f)
  | .constObj => .constObj

def smap (s : Streams A) : Streams B := List.map (fun p => (p.1, p.2.map f)) s

def rmap (reg : Reg A) : Reg B := fun r => (reg r).map (smap f)

def Bundle.map (b : Bundle A) : Bundle B := ⟨b.args.map (·.map f), b.kwargs.map fun p => (p.1, p.2.map f)⟩

theorem lookup_smap (s : Streams A) (c : Ctx) : (smap f s).lookup c = (s.lookup c).map (Cell.map f) := by
  unfold smap
  induction s with
  | nil => rfl
  | cons p s ih =>
    obtain ⟨k, x⟩ := p
    simp only [List.map_cons, List.lookup_cons]
    by_cases h : c = k
    · simp [h]
    · have : (c == k) = false := by simpa using h
      simp only [this, ih]

theorem smap_set (s : Streams A) (c : Ctx) (x : Cell A) : smap f (s.set c x) = (smap f s).set c (x.map f) := by
  unfold smap
  induction s with
  | nil => rfl
  | cons p s ih =>
    obtain ⟨k, y⟩ := p
    simp only [Streams.set, List.map_cons]
    by_cases h : k = c
    · rw [if_pos h, if_pos h]; rfl
    · rw [if_neg h, if_neg h, List.map_cons, ih]

theorem smap_getD (o : Option (Streams A)) : smap f (o.getD []) = (o.map (smap f)).getD [] := by
  cases o <;> rfl

theorem rmap_store (reg : Reg A) (r : Ref) (c : Ctx) (x : Cell A) : rmap f (reg.store r c x) = (rmap f reg).store r c (x.map f) := by
  funext r'
  unfold rmap Reg.store
  by_cases h : r' = r
  · simp only [h, if_true, Option.map_some, smap_set, smap_getD]
  · simp only [h, if_false]

theorem smap_foldl (m s : Streams A) :
    smap f (m.foldl (fun s p => s.set p.1 p.2) s) = (smap f m).foldl (fun s p => s.set p.1 p.2) (smap f s) := by
  induction m generalizing s with
  | nil => rfl
  | cons p m ih =>
    rw [List.foldl_cons, ih, smap_set]
    rfl

theorem rmap_storeAll (reg : Reg A) (r : Ref) (m : Streams A) : rmap f (reg.storeAll r m) = (rmap f reg).storeAll r (smap f m) := by
  funext r'
  unfold rmap Reg.storeAll
  by_cases h : r' = r
  · simp only [h, if_true, Option.map_some, smap_foldl, smap_getD]
  · simp only [h, if_false]

theorem rmap_delete (reg : Reg A) (r : Ref) : rmap f (reg.delete r) = (rmap f reg).delete r := by
  funext r'
  unfold rmap Reg.delete
  by_cases h : r' = r
  · simp [h]
  · simp [h]

theorem rmap_deleteAll (ts : List Ref) (reg : Reg A) : rmap f (ts.foldl Reg.delete reg) = ts.foldl Reg.delete (rmap f reg) := by
  induction ts generalizing reg with
  | nil => rfl
  | cons t ts ih => rw [List.foldl_cons, ih, rmap_delete, List.foldl_cons]

theorem rmap_storeContexts (t : Ref) (x : Cell A) (cs : List Ctx) (reg : Reg A) :
    rmap f (cs.foldl (fun reg c => reg.store t c x) reg) = cs.foldl (fun reg c => reg.store t c (x.map f)) (rmap f reg) := by
  induction cs generalizing reg with
  | nil => rfl
  | cons c cs ih => rw [List.foldl_cons, ih, rmap_store, List.foldl_cons]

theorem lengths_map (ds : List (List A)) : (ds.map (·.map f)).map List.length = ds.map List.length := by
  rw [List.map_map]
  congr 1
  funext d
  simp

theorem broadcast_map (ds : List (List A)) : broadcast (ds.map (·.map f)) = (broadcast ds).map (List.map (List.map f)) := by
  unfold broadcast
  simp only [lengths_map]
  by_cases h : (dedupe [] (ds.map List.length)).length ≤ 1
  · rw [if_pos h, if_pos h]; rfl
  · rw [if_neg h, if_neg h]
    split
    · rename_i t ht
      simp only [Except.map, List.map_map, Except.ok.injEq]
      apply List.map_congr_left
      intro d _
      simp only [Function.comp]
      rw [List.length_map]
      by_cases h1 : d.length = 1
      · rw [if_pos h1, if_pos h1, List.map_flatten, List.map_replicate]
      · rw [if_neg h1, if_neg h1]
    · rfl

theorem mapM_map_except {α β γ : Type} (g : α → Except EErr β) (h : β → γ) (l : List α) :
    l.mapM (fun x => (g x).map h) = (l.mapM g).map (List.map h) := by
  induction l with
  | nil => rfl
  | cons a l ih =>
    rw [List.mapM_cons, List.mapM_cons, ih]
    cases ha : g a with
    | error e => rfl
    | ok b =>
      cases hl : l.mapM g with
      | error e => rfl
      | ok bs => rfl

theorem load_rmap (reg : Reg A) (r : Ref) (c : Ctx) : (rmap f reg).load r c = (reg.load r c).map (Cell.map f) := by
  unfold Reg.load rmap
  cases reg r with
  | none => rfl
  | some s =>
    simp only [Option.map_some, lookup_smap]
    cases s.lookup c with
    | none => rfl
    | some x => rfl

theorem getDataset_map {sa : Sem A WA} {sb : Sem B WB} (hc : ∀ k, sb.constVal k = f (sa.constVal k)) (reg : Reg A) (c : Ctx) (r : Ref) :
    getDataset sb (rmap f reg) c r = (getDataset sa reg c r).map (List.map f) := by
  have key : (match (rmap f reg).load r c with
    | .error e => .error e
    | .ok (.data d) => .ok d
    | .ok .constObj => .error .typeError : Except EErr (List B)) =
    (match reg.load r c with
    | .error e => .error e
    | .ok (.data d) => .ok d
    | .ok .constObj => .error .typeError : Except EErr (List A)).map (List.map f) := by
    rw [load_rmap]
    cases reg.load r c with
    | error e => rfl
    | ok x => cases x <;> rfl
  cases r with
  | const k => simp [getDataset, hc, Except.map]
  | node id => exact key
  | input x => exact key
  | attr r a => exact key

theorem gather_map {sa : Sem A WA} {sb : Sem B WB} (hc : ∀ k, sb.constVal k = f (sa.constVal k)) (reg : Reg A) (c : Ctx) (args : List Ref)
    (kwargs : List (String × Ref)) : gather sb (rmap f reg) c args kwargs = (gather sa reg c args kwargs).map (Bundle.map f) := by
  have hm : ∀ l : List Ref, l.mapM (getDataset sb (rmap f reg) c) = (l.mapM (getDataset sa reg c)).map (List.map (List.map f)) := by
    intro l
    rw [← mapM_map_except]
    congr 1
    funext r
    exact getDataset_map f hc reg c r
  unfold gather
  rw [hm, hm]
  simp only [bind, Except.bind]
  cases args.mapM (getDataset sa reg c) with
  | error e => rfl
  | ok ad =>
    simp only [Except.map]
    cases (kwargs.map (·.2)).mapM (getDataset sa reg c) with
    | error e => rfl
    | ok kd =>
      simp only
      rw [← List.map_append, broadcast_map]
      cases broadcast (ad ++ kd) with
      | error e => rfl
      | ok b =>
        simp only [Except.map, Bundle.map, List.length_map, List.map_take, Except.ok.injEq, Bundle.mk.injEq, true_and]
        rw [← List.map_drop, List.zip_map_right]
        rfl

theorem len_map (b : Bundle A) : (b.map f).len = b.len := by
  obtain ⟨args, kwargs⟩ := b
  unfold Bundle.len Bundle.map
  cases args with
  | cons d ds => simp
  | nil =>
    cases kwargs with
    | nil => rfl
    | cons p ps => simp

theorem row_map (b : Bundle A) (i : ℕ) :
    (b.map f).row i = (b.row i).map fun r => (r.1.map f, r.2.map fun kv => (kv.1, f kv.2)) := by
  have h1 : ∀ l : List (List A), (l.map (·.map f)).mapM (batchAt i) = (l.mapM (batchAt i)).map (List.map f) := by
    intro l
    rw [← mapM_map_except, List.mapM_map]
    congr 1
    funext d
    simp only [Function.comp, batchAt, List.getElem?_map]
    cases d[i]? <;> rfl
  have h2 : ∀ l : List (String × List A), (l.map fun p => (p.1, p.2.map f)).mapM (kwBatchAt i) =
      (l.mapM (kwBatchAt i)).map (List.map fun kv => (kv.1, f kv.2)) := by
    intro l
    rw [← mapM_map_except, List.mapM_map]
    congr 1
    funext d
    simp only [Function.comp, kwBatchAt, List.getElem?_map]
    cases d.2[i]? <;> rfl
  unfold Bundle.row Bundle.map
  simp only [bind, Except.bind]
  rw [h1, h2]
  cases b.args.mapM (batchAt i) with
  | error e => rfl
  | ok a =>
    simp only [Except.map]
    cases b.kwargs.mapM (kwBatchAt i) with
    | error e => rfl
    | ok k => rfl

/-! ### Outputs -/

def omap (o : List (Ctx × List (List A))) : List (Ctx × List (List B)) := o.map fun p => (p.1, p.2.map (·.map f))

theorem addOutput_map (s : Streams A) (acc : List (Ctx × List (List A))) :
    addOutput (omap f acc) (smap f s) = (addOutput acc s).map (omap f) := by
  unfold smap
  induction s generalizing acc with
  | nil => rfl
  | cons p s ih =>
    obtain ⟨c, x⟩ := p
    cases x with
    | constObj => rfl
    | data d =>
      simp only [List.map_cons, Cell.map, addOutput]
      rw [← ih]
      congr 1
      have hany : ((omap f acc).any fun p => p.1 == c) = acc.any fun p => p.1 == c := by
        unfold omap
        rw [List.any_map]
        rfl
      rw [hany]
      by_cases h : (acc.any fun p => p.1 == c) = true
      · rw [if_pos h, if_pos h]
        unfold omap
        rw [List.map_map, List.map_map]
        apply List.map_congr_left
        intro p _
        simp only [Function.comp]
        by_cases hp : p.1 = c
        · simp [hp]
        · simp [hp]
      · rw [if_neg h, if_neg h]
        simp [omap]

theorem collectOutputs_map (reg : Reg A) (outs : List Ref) (acc : List (Ctx × List (List A))) :
    collectOutputs (rmap f reg) outs (omap f acc) = (collectOutputs reg outs acc).map (omap f) := by
  induction outs generalizing acc with
  | nil => rfl
  | cons r rs ih =>
    simp only [collectOutputs]
    unfold rmap
    cases reg r with
    | none => rfl
    | some s =>
      simp only [Option.map_some]
      rw [addOutput_map]
      cases addOutput acc s with
      | error e => rfl
      | ok acc' => exact ih acc'

theorem mapM_option_map {α β γ : Type} (g : α → Option β) (h : β → γ) (l : List α) :
    l.mapM (fun x => (g x).map h) = (l.mapM g).map (List.map h) := by
  induction l with
  | nil => rfl
  | cons a l ih =>
    rw [List.mapM_cons, List.mapM_cons, ih]
    cases g a with
    | none => rfl
    | some b =>
      cases l.mapM g with
      | none => rfl
      | some bs => rfl

theorem merge_map (ds : List (List A)) : merge (ds.map (·.map f)) = (merge ds).map (List.map (List.map f)) := by
  match ds with
  | [] => rfl
  | [d] => simp [merge, Except.map, Function.comp]
  | d :: d2 :: rest =>
    have hl := lengths_map f (d :: d2 :: rest)
    unfold merge
    simp only [List.map_cons] at hl ⊢
    rw [hl]
    by_cases h : (dedupe [] (d.length :: d2.length :: List.map List.length rest)).length > 1
    · rw [if_pos h, if_pos h]; rfl
    · rw [if_neg h, if_neg h]
      have hrow : ∀ i : ℕ, (List.map f d :: List.map f d2 :: List.map (fun x => List.map f x) rest).mapM (fun x => x[i]?) =
          ((d :: d2 :: rest).mapM fun x => x[i]?).map (List.map f) := by
        intro i
        have : (List.map f d :: List.map f d2 :: List.map (fun x => List.map f x) rest) = (d :: d2 :: rest).map (·.map f) := rfl
        rw [this, List.mapM_map, ← mapM_option_map]
        congr 1
        funext x
        simp
      simp only [hrow, List.length_map]
      rw [mapM_option_map]
      cases (List.range d.length).mapM fun i => (d :: d2 :: rest).mapM fun x => x[i]? with
      | none => rfl
      | some rows => rfl

theorem returnOutputs_map (reg : Reg A) (outs : List Ref) : returnOutputs (rmap f reg) outs = (returnOutputs reg outs).map (omap f) := by
  unfold returnOutputs
  have := collectOutputs_map f reg outs []
  simp only [omap, List.map_nil] at this
  rw [this]
  simp only [bind, Except.bind]
  cases collectOutputs reg outs [] with
  | error e => rfl
  | ok per =>
    simp only [Except.map]
    rw [show omap f per = per.map (fun p => (p.1, p.2.map (·.map f))) from rfl, List.mapM_map]
    have : (per.mapM fun p => (mergeContext p).map fun q : Ctx × List (List A) => (q.1, q.2.map (·.map f))) =
        (per.mapM mergeContext).map (List.map fun q => (q.1, q.2.map (·.map f))) := mapM_map_except _ _ _
    have h2 : (mergeContext ∘ fun p : Ctx × List (List A) => (p.1, p.2.map (·.map f))) =
        fun p => (mergeContext p).map fun q : Ctx × List (List A) => (q.1, q.2.map (·.map f)) := by
      funext p
      simp only [Function.comp, mergeContext, merge_map]
      cases merge p.2 with
      | error e => rfl
      | ok rows => rfl
    rw [h2, this]
    rfl

/-! ### Inputs -/

def RawInput.map : RawInput A → RawInput B
  | .batches vs => .batches (vs.map f)
  | .single v => .single (f v)

theorem dataset_map (v : RawInput A) : (v.map f).dataset = v.dataset.map f := by
  cases v <;> rfl

theorem bindStep_map (names : List String) (acc : Except EErr (List (String × RawInput A))) (kv : String × RawInput A) :
    bindStep names (acc.map (List.map fun p => (p.1, p.2.map f))) (kv.1, kv.2.map f) =
      (bindStep names acc kv).map (List.map fun p => (p.1, p.2.map f)) := by
  cases acc with
  | error e => rfl
  | ok l =>
    simp only [Except.map, bindStep, List.map_map]
    have : (List.map ((fun p : String × RawInput B => p.1) ∘ fun p : String × RawInput A => (p.1, p.2.map f)) l) = l.map (·.1) := rfl
    rw [this]
    by_cases h1 : kv.1 ∉ names
    · rw [if_pos h1, if_pos h1]
    · rw [if_neg h1, if_neg h1]
      by_cases h2 : kv.1 ∈ l.map (·.1)
      · rw [if_pos h2, if_pos h2]
      · rw [if_neg h2, if_neg h2]
        simp

theorem bindInputs_map (names : List String) (args : List (RawInput A)) (kwargs : List (String × RawInput A)) :
    bindInputs names (args.map (RawInput.map f)) (kwargs.map fun p => (p.1, p.2.map f)) =
      (bindInputs names args kwargs).map (List.map fun p => (p.1, p.2.map f)) := by
  unfold bindInputs
  simp only [List.length_map]
  by_cases h : args.length > names.length
  · rw [if_pos h, if_pos h]; rfl
  · rw [if_neg h, if_neg h]
    have hf : ∀ (l : List (String × RawInput A)) (acc : Except EErr (List (String × RawInput A))),
        (l.map fun p => (p.1, p.2.map f)).foldl (bindStep names) (acc.map (List.map fun p => (p.1, p.2.map f))) =
          (l.foldl (bindStep names) acc).map (List.map fun p => (p.1, p.2.map f)) := by
      intro l
      induction l with
      | nil => intro acc; rfl
      | cons p l ih =>
        intro acc
        rw [List.map_cons, List.foldl_cons, List.foldl_cons, ← ih, bindStep_map]
    have hz : (names.take args.length).zip (args.map (RawInput.map f)) =
        ((names.take args.length).zip args).map fun p => (p.1, p.2.map f) := by
      rw [List.zip_map_right]
      rfl
    have := hf kwargs (.ok ((names.take args.length).zip args))
    simp only [Except.map] at this
    rw [hz, this]
    cases kwargs.foldl (bindStep names) (.ok ((names.take args.length).zip args)) with
    | error e => rfl
    | ok l =>
      simp only [List.map_map]
      have : (List.map ((fun p : String × RawInput B => p.1) ∘ fun p : String × RawInput A => (p.1, p.2.map f)) l) = l.map (·.1) := rfl
      rw [this]
      split_ifs <;> rfl

theorem prepareRegister_map (names : List String) (args : List (RawInput A)) (kwargs : List (String × RawInput A)) (cs : List Ctx) :
    prepareRegister names (args.map (RawInput.map f)) (kwargs.map fun p => (p.1, p.2.map f)) cs =
      (prepareRegister names args kwargs cs).map (rmap f) := by
  unfold prepareRegister
  rw [bindInputs_map]
  cases bindInputs names args kwargs with
  | error e => rfl
  | ok l =>
    simp only [Except.map, Except.ok.injEq]
    rw [List.foldl_map]
    have : ∀ (l : List (String × RawInput A)) (reg : Reg A),
        l.foldl (fun reg p => cs.foldl (fun reg c => Reg.store reg (.input p.1) c (.data (p.2.map f).dataset)) reg) (rmap f reg) =
        rmap f (l.foldl (fun reg p => cs.foldl (fun reg c => Reg.store reg (.input p.1) c (.data p.2.dataset)) reg) reg) := by
      intro l
      induction l with
      | nil => intro reg; rfl
      | cons p l ih =>
        intro reg
        rw [List.foldl_cons, List.foldl_cons, ← ih, rmap_storeContexts, dataset_map]
        rfl
    exact this l fun _ => none

end FF.Orch
