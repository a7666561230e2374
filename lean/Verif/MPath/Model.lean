/-
Model of module queries: `fastforward.mpath` (selectors, fragments, search).

Files modelled (all under /repo/src/fastforward/mpath):
  selector.py   (BaseSelector, Selector, MultiSelector, _is_multi_wildcard, _duplicate_extend)
  fragments.py  (all fragment classes)
  _search.py    (FilterResult, _child_result, search)

Simplifications, used throughout:
* a module is an abstract object of a type `M` with decidable identity, a
  child name is an element of a type `N` with decidable equality, and a full
  name is the list of child names instead of their dotted concatenation
  (torch forbids dots in child names);
* `root.named_children()` is a function `children : M → List (N × M)`;
* regular expressions, classes and user predicates are arbitrary boolean tests
  of the child name and the module;
* fragments have no `__eq__`, so Python compares them by identity.  A selector
  therefore holds references (`Ref`); `heap` gives the content of the fragments
  of the query, and `fresh` references are the `**` fragments that `simplify`
  creates while the search runs.
-/
import Mathlib.Data.List.Basic

namespace FF.MPath

/-- The fragment classes: fragments.py:15-247.  `test` stands for
`RegexPathFragment` (61-94), `ClassFragment` (97-142) and `PredicateFragment`
(145-162), each an opaque boolean test. -/
inductive Frag (N M : Type) where
  | wildcard (matchMultiple : Bool)
  | path (name : N)
  | test (p : N → M → Bool)
  | joint (fs : List (Frag N M))
  | disjoint (fs : List (Frag N M))
  | inverted (f : Frag N M)

section fragments
variable {N M : Type} [DecidableEq N]

mutual
/-- `Fragment.match`: fragments.py:30-31 (wildcard), 49-50 (path), 84-86, 132-134,
153-154 (tests), 177-181 (joint), 210-214 (disjoint), 238-239 (inverted). -/
def Frag.isMatch : Frag N M → N → M → Bool
  | .wildcard _, _, _ => true
  | .path s, n, _ => n == s
  | .test p, n, m => p n m
  | .joint fs, n, m => matchAll fs n m
  | .disjoint fs, n, m => matchAny fs n m
  | .inverted f, n, m => !(f.isMatch n m)

/-- The loop of `JointFragment.match`: fragments.py:178-181. -/
def matchAll : List (Frag N M) → N → M → Bool
  | [], _, _ => true
  | f :: fs, n, m => if !(f.isMatch n m) then false else matchAll fs n m

/-- The loop of `DisjointFragment.match`: fragments.py:211-214. -/
def matchAny : List (Frag N M) → N → M → Bool
  | [], _, _ => false
  | f :: fs, n, m => if f.isMatch n m then true else matchAny fs n m
end

/-- `Fragment.must_advance`: selector.py:541-551 (default `True`), fragments.py:26-27
(wildcard), 234-235 (inverted), 173-174 and 206-207 (joint and disjoint: the code
tests the truth of the bound method instead of calling it, so the answer is
always `True`). -/
def Frag.mustAdvance : Frag N M → Bool
  | .wildcard mm => !mm
  | .inverted f => f.mustAdvance
  | _ => true

/-- `isinstance(fragment, WildcardFragment) and fragment.match_multiple`:
selector.py:284 and 479. -/
def Frag.isMultiWildcard : Frag N M → Bool
  | .wildcard mm => mm
  | _ => false

end fragments

/-- A reference to a fragment object: one of the query's own, or the `k`-th `**`
created by `simplify` during the search (selector.py:210, 215). -/
inductive Ref where
  | obj (i : Nat)
  | fresh (k : Nat)
  deriving DecidableEq, Repr

/-- The fragment a reference points to. -/
def content {N M : Type} (heap : Nat → Frag N M) : Ref → Frag N M
  | .obj i => heap i
  | .fresh _ => .wildcard true

mutual
/-- Selectors: selector.py:53-76 (`next`), 220-228 (`Selector`), 365-373
(`MultiSelector`).  `none` is Python's `None` in a `next` field. -/
inductive Sel where
  | none
  | one (fragment : Ref) (next : Sel)
  | multi (selectors : Alts) (next : Sel)

/-- The tuple `MultiSelector.selectors`: selector.py:373. -/
inductive Alts where
  | nil
  | cons (a : Sel) (as : Alts)
end

/-- `_duplicate_extend(selector, ext)`: selector.py:571-574; also `extends` and `/`
(78-107). -/
def Sel.extend : Sel → Sel → Sel
  | .none, t => t
  | .one f nx, t => .one f (nx.extend t)
  | .multi as nx, t => .multi as (nx.extend t)

mutual
/-- `fragments()`: selector.py:344-352 for `Selector`; 420-429 for `MultiSelector`,
which leaves out its `next`. -/
def Sel.fragments : Sel → List Ref
  | .none => []
  | .one f nx => f :: nx.fragments
  | .multi as _ => as.fragments
/-- The loop in `MultiSelector.fragments`: selector.py:427-428. -/
def Alts.fragments : Alts → List Ref
  | .nil => []
  | .cons a as => a.fragments ++ as.fragments
end

/-- A nested tuple of fragments, written as its bracketing: two nested tuples are
equal exactly when their bracketings are. -/
inductive Tok where
  | «open»
  | «close»
  | leaf (r : Ref)
  deriving DecidableEq, Repr

mutual
/-- `fragment_list()`: selector.py:354-362 (`Selector`) and 431-443 (`MultiSelector`). -/
def Sel.key : Sel → List Tok
  | .none => []
  | .one f nx => .leaf f :: nx.key
  | .multi as nx => (.open :: as.key) ++ (.close :: nx.key)
/-- The loop in `MultiSelector.fragment_list`: selector.py:437-439. -/
def Alts.key : Alts → List Tok
  | .nil => []
  | .cons a as => a.key ++ as.key
end

section selectors
variable {N M : Type} (heap : Nat → Frag N M)

/-- Does the reference point to a `**`? -/
def isStar (r : Ref) : Bool := (content heap r).isMultiWildcard

mutual
/-- `has_multi_wildcard_root()`: selector.py:276-284 and 457-463. -/
def Sel.hasRoot : Sel → Bool
  | .none => false
  | .one f _ => isStar heap f
  | .multi as _ => as.allRoot
/-- The generator in `MultiSelector.has_multi_wildcard_root`: selector.py:463. -/
def Alts.allRoot : Alts → Bool
  | .nil => true
  | .cons a as => a.hasRoot && as.allRoot
end

/-- `if updated_selector := ...`: only `None` is false (selector.py:453). -/
def Alts.consSome : Sel → Alts → Alts
  | .none, as => as
  | a, as => .cons a as

mutual
/-- `remove_multi_wildcard_root()`: selector.py:286-296 and 445-455. -/
def Sel.removeRoot : Sel → Sel
  | .none => .none
  | .one f nx => if !(isStar heap f) then .one f nx else nx.removeRoot
  | .multi as nx => .multi as.removeRoot nx
/-- The loop in `MultiSelector.remove_multi_wildcard_root`: selector.py:451-454. -/
def Alts.removeRoot : Alts → Alts
  | .nil => .nil
  | .cons a as => Alts.consSome a.removeRoot as.removeRoot
end

/-- `simplify()`: selector.py:199-217.  Both branches put one new `**` fragment in
front of what is left (which may be nothing). -/
def Sel.simplify (n : Nat) (s : Sel) : Sel × Nat :=
  if s.hasRoot heap then (.one (.fresh n) (s.removeRoot heap), n + 1) else (s, n)

/-- `_is_multi_wildcard(selector)`: selector.py:466-480. -/
def Sel.isMultiWildcard (s : Sel) : Bool := s.fragments.all (isStar heap)

/-- `if self.next:` -/
def Sel.isSome : Sel → Bool
  | .none => false
  | _ => true

/-- `_SelectorContinuation`: selector.py:35-47. -/
structure Cont where
  sel : Sel
  fragment : Ref
  consume : Bool

/-- Result of `matches_and_continuations` together with the number of `**` fragments
created so far. -/
structure MC where
  hits : List Ref
  conts : List Cont
  next : Nat

variable [DecidableEq N]

/-- `Selector.matches_and_continuations`: selector.py:298-342. -/
def oneMC (n : Nat) (f : Ref) (nx : Sel) (c : N × M) : MC :=
  if !((content heap f).isMatch c.1 c.2) then ⟨[], [], n⟩
  else
    -- lines 315-324
    let star := !((content heap f).mustAdvance)
    let self : List Cont := if star then [⟨.one f nx, f, true⟩] else []
    let zero : List Cont × Nat :=
      if star && nx.isSome then
        let t := nx.simplify heap n
        ([⟨t.1, f, false⟩], t.2)
      else ([], n)
    -- lines 328-329
    let tail : List Cont × Nat :=
      if nx.isSome then
        let t := nx.simplify heap zero.2
        ([⟨t.1, f, true⟩], t.2)
      else ([], zero.2)
    let conts := self ++ zero.1 ++ tail.1
    -- lines 333-342
    if !nx.isSome then ⟨[f], conts, tail.2⟩
    else if nx.isMultiWildcard heap then ⟨[f], conts, tail.2⟩
    else ⟨[], conts, tail.2⟩

mutual
/-- `matches_and_continuations` of `_duplicate_extend(self, rest)`: selector.py:298-342
for a `Selector`, 398-418 for a `MultiSelector`. -/
def Sel.mc (n : Nat) (c : N × M) : Sel → Sel → MC
  | .none, _ => ⟨[], [], n⟩
  | .one f nx, rest => oneMC heap n f (nx.extend rest) c
  | .multi as nx, rest => as.mc n c (nx.extend rest)
/-- The loop in `MultiSelector.matches_and_continuations`: selector.py:413-417. -/
def Alts.mc (n : Nat) (c : N × M) : Alts → Sel → MC
  | .nil, _ => ⟨[], [], n⟩
  | .cons a as, rest =>
    let r := a.mc n c rest
    let r' := as.mc r.next c rest
    ⟨r.hits ++ r'.hits, r.conts ++ r'.conts, r'.next⟩
end

end selectors

/-- `FilterResult`: _search.py:19-25. -/
structure Result (N M : Type) where
  fullName : List N
  module : M
  parent : M
  parentAttribute : Option N
  fragmentMatches : List Ref

/-- `_ActiveSearchItem`: _search.py:225-228. -/
structure Item (N M : Type) where
  sel : Sel
  result : Result N M

/-- The local variables of `search`: _search.py:318-325.  The top of the stack
`active_modules` is the head of `active`; `results` is in order of discovery. -/
structure St (N M : Type) where
  results : List (Result N M)
  selected : List M
  active : List (Item N M)
  explored : List (List Tok × M)
  next : Nat

section search
variable {N M : Type} [DecidableEq N] [DecidableEq M]
variable (heap : Nat → Frag N M) (children : M → List (N × M))

/-- `_child_result`: _search.py:231-243. -/
def childResult (p : Result N M) (c : N × M) (f : Ref) : Result N M :=
  ⟨p.fullName ++ [c.1], c.2, p.module, some c.1, p.fragmentMatches ++ [f]⟩

/-- Body of `for match in matches`: _search.py:334-339. -/
def onHit (it : Item N M) (c : N × M) (st : St N M) (f : Ref) : St N M :=
  if c.2 ∈ st.selected then st
  else { st with
    selected := c.2 :: st.selected
    results := st.results ++ [childResult it.result c f] }

/-- The filter result of a continuation: _search.py:342-351. -/
def contResult (it : Item N M) (c : N × M) (k : Cont) : Result N M :=
  if k.consume then childResult it.result c k.fragment
  else { it.result with fragmentMatches := it.result.fragmentMatches ++ [k.fragment] }

/-- Body of `for continuation in continuations`: _search.py:341-356. -/
def onCont (it : Item N M) (c : N × M) (st : St N M) (k : Cont) : St N M :=
  if (k.sel.key, (contResult it c k).module) ∈ st.explored then st
  else { st with
    explored := (k.sel.key, (contResult it c k).module) :: st.explored
    active := ⟨k.sel, contResult it c k⟩ :: st.active }

/-- Body of the loop over the children: _search.py:331-356. -/
def onChild (it : Item N M) (st : St N M) (c : N × M) : St N M :=
  let r := it.sel.mc heap st.next c .none
  let st1 := r.hits.foldl (onHit it c) { st with next := r.next }
  r.conts.foldl (onCont it c) st1

/-- One round of the search loop: _search.py:328-356. -/
def expand (it : Item N M) (st : St N M) : St N M :=
  (children it.result.module).foldl (onChild heap it) st

/-- `while active_modules:` _search.py:327-356, with at most `fuel` rounds. -/
def loop : Nat → St N M → Option (St N M)
  | 0, st => match st.active with
    | [] => some st
    | _ :: _ => none
  | fuel + 1, st => match st.active with
    | [] => some st
    | it :: rest => loop fuel (expand heap children it { st with active := rest })

/-- The result that stands for the root: _search.py:322. -/
def rootResult (root : M) : Result N M := ⟨[], root, root, none, []⟩

/-- The state in which the loop of `search` starts: _search.py:314-325 (`query.simplify()`
is the last line of `query_for_module`, 285). -/
def start (q : Sel) (root : M) : St N M :=
  let s := q.simplify heap 0
  ⟨[], [], [⟨s.1, rootResult root⟩], [(s.1.key, root)], s.2⟩

/-- `search(query, root)`: _search.py:288-358, with at most `fuel` rounds of its loop. -/
def search (fuel : Nat) (q : Sel) (root : M) : Option (List (Result N M)) :=
  (loop heap children fuel (start heap q root)).map St.results

/-- `torch.nn.Module.named_children()`: the entries of `_modules`, without modules already
reported for this parent. -/
def namedChildren (modules : List (N × M)) : List (N × M) :=
  modules.foldl (fun acc c => if c.2 ∈ acc.map Prod.snd then acc else acc ++ [c]) []

end search

end FF.MPath
