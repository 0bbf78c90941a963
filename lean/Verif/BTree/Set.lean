import Verif.BTree.Reach
import Verif.Lib.SetOps
/-!
# Model of `BTreeSet` (src/btree/btree_set.rs)

`none` = panic, as for the map; `N` is the const parameter.  `len * 4` (170, 197) is taken
without wrap-around: a set of 2^62 elements does not fit into memory.
-/
set_option linter.unusedSectionVars false
namespace Verif.BTree
open Std Node Lib

/-- btree_set.rs:12-14 `BTreeSet`. -/
structure BTreeSet (T : Type _) where
  map : BTreeMap T Unit

namespace BTreeSet
variable {T : Type}

/-- The elements in order (abstraction function; `iter` yields these). -/
def elems (s : BTreeSet T) : List T := s.map.abs.map (·.1)

/-- btree_set.rs:157-161 `new`, 450-454 `default`. -/
def new : BTreeSet T := ⟨.new⟩
/-- btree_set.rs:37-39 `clear`. -/
def clear (s : BTreeSet T) : BTreeSet T := ⟨s.map.clear⟩
/-- btree_set.rs:118-120 `is_empty`. -/
def isEmpty (s : BTreeSet T) : Bool := s.map.isEmpty
/-- btree_set.rs:152-154 `len`. -/
def len (s : BTreeSet T) : Nat := s.map.len
/-- btree_set.rs:29-34 `append`. -/
def append [Ord T] (N : Nat) (o : Sharing T Unit) (a b : BTreeSet T) :
    Option (BTreeSet T × BTreeSet T) :=
  (a.map.append N o b.map).map (fun x => (⟨x.1⟩, ⟨x.2⟩))
/-- btree_set.rs:42-48 `contains`. -/
def contains (s : BTreeSet T) (p : T → Ordering) : Bool := s.map.containsKey p
/-- btree_set.rs:74-80 `get`. -/
def get (s : BTreeSet T) (p : T → Ordering) : Option T := (s.map.getKeyValue p).map (·.1)
/-- btree_set.rs:69-71 `first`; outer `none` = panic. -/
def first (s : BTreeSet T) : Option (Option T) := s.map.firstKeyValue.map (fun e => e.map (·.1))
/-- btree_set.rs:147-149 `last`. -/
def last (s : BTreeSet T) : Option T := s.map.lastKeyValue.map (·.1)
/-- btree_set.rs:84-89 `insert`. -/
def insert [Ord T] (N : Nat) (s : BTreeSet T) (x : T) : Option (BTreeSet T × Bool) :=
  (s.map.insert N x ()).map (fun y => (⟨y.1⟩, y.2.isNone))
/-- btree_set.rs:229-234 `pop_first`. -/
def popFirst (N : Nat) (s : BTreeSet T) : Option (BTreeSet T × Option T) :=
  (s.map.popFirst N).map (fun y => (⟨y.1⟩, y.2.map (·.1)))
/-- btree_set.rs:237-242 `pop_last`. -/
def popLast (N : Nat) (s : BTreeSet T) : Option (BTreeSet T × Option T) :=
  (s.map.popLast N).map (fun y => (⟨y.1⟩, y.2.map (·.1)))
/-- btree_set.rs:258-264 `remove`. -/
def remove (N : Nat) (s : BTreeSet T) (p : T → Ordering) : Option (BTreeSet T × Bool) :=
  (s.map.remove N p).map (fun y => (⟨y.1⟩, y.2.isSome))
/-- `self.map.rm_and_rebal(|n| n.remove(value)).map(|e| e.0)` (273, 329). -/
def removeElem (N : Nat) (s : BTreeSet T) (p : T → Ordering) : Option (BTreeSet T × Option T) :=
  (s.map.rmAndRebal (fun n => n.remove N p)).map (fun y => (⟨y.1⟩, y.2.map (·.1)))
/-- btree_set.rs:319-330 `take`. -/
def take (N : Nat) (s : BTreeSet T) (p : T → Ordering) : Option (BTreeSet T × Option T) :=
  if !s.contains p then some (s, none) else s.removeElem N p
/-- btree_set.rs:267-276 `replace`. -/
def replace [Ord T] (N : Nat) (s : BTreeSet T) (x : T) : Option (BTreeSet T × Option T) :=
  match s.removeElem N (compare x) with
  | none => none
  | some (s', ret) => (s'.insert N x).map (fun y => (y.1, ret))
/-- btree_set.rs:289-297 `split_off`. -/
def splitOff [Ord T] (N : Nat) (o : Sharing T Unit) (s : BTreeSet T) (p : T → Ordering) :
    Option (BTreeSet T × BTreeSet T) :=
  (s.map.splitOff N o p).map (fun x => (⟨x.1⟩, ⟨x.2⟩))

/-- btree_set.rs:456-470 `extend` (both impls). -/
def extend [Ord T] (N : Nat) (s : BTreeSet T) : List T → Option (BTreeSet T)
  | [] => some s
  | x :: xs =>
    match s.insert N x with
    | none => none
    | some (s', _) => extend N s' xs
/-- btree_set.rs:480-486 `from_iter`, 472-478 `From<[T; M]>`. -/
def fromIter [Ord T] (N : Nat) (xs : List T) : Option (BTreeSet T) := extend N new xs

/-- `for k in s`: everything the consuming iterator yields (389-416, 507-515). -/
def intoElems (o : Sharing T Unit) (s : BTreeSet T) : Option (List T) :=
  (s.map.intoList o).map (fun l => l.map (·.1))

/-- btree_set.rs:172-174: `for k in rhs { lhs.remove(&k); }`. -/
def removeLoop [Ord T] (N : Nat) (s : BTreeSet T) : List T → Option (BTreeSet T)
  | [] => some s
  | x :: xs =>
    match s.remove N (compare x) with
    | none => none
    | some (s', _) => removeLoop N s' xs

/-- btree_set.rs:165-177 `new_diff`, and 535-541 `Sub`. -/
def newDiff [Ord T] (N : Nat) (oa ob : Sharing T Unit) (a b : BTreeSet T) : Option (BTreeSet T) :=
  if a.len * 4 < b.len then
    match a.intoElems oa with
    | none => none
    | some xs => fromIter N (xs.filter (fun k => !b.contains (compare k)))
  else
    match b.intoElems ob with
    | none => none
    | some ys => removeLoop N a ys

/-- btree_set.rs:180-189 `new_intersection`, and 418-424 `BitAnd`. -/
def newIntersection [Ord T] (N : Nat) (oa ob : Sharing T Unit) (a b : BTreeSet T) :
    Option (BTreeSet T) :=
  if a.len < b.len then
    match a.intoElems oa with
    | none => none
    | some xs => fromIter N (xs.filter (fun k => b.contains (compare k)))
  else
    match b.intoElems ob with
    | none => none
    | some ys => fromIter N (ys.filter (fun k => a.contains (compare k)))

/-- btree_set.rs:199-201: `for k in lhs { rhs.map.entry(k).or_default(); }`; the reference
returned is not written to. -/
def entryLoop [Ord T] (N : Nat) (s : BTreeSet T) : List T → Option (BTreeSet T)
  | [] => some s
  | x :: xs =>
    match (btreeTrait T Unit N).orInsert s.map x () id with
    | none => none
    | some m => entryLoop N ⟨m⟩ xs

/-- btree_set.rs:192-206 `new_union`, and 426-432 `BitOr`. -/
def newUnion [Ord T] (N : Nat) (oa ob : Sharing T Unit) (a b : BTreeSet T) : Option (BTreeSet T) :=
  if a.len * 4 ≤ b.len then
    match a.intoElems oa with
    | none => none
    | some xs => entryLoop N b xs
  else
    match b.intoElems ob with
    | none => none
    | some ys => a.extend N ys

/-- btree_set.rs:219-223. -/
def toggleLoop [Ord T] (N : Nat) (s : BTreeSet T) : List T → Option (BTreeSet T)
  | [] => some s
  | x :: xs =>
    match s.remove N (compare x) with
    | none => none
    | some (s', true) => toggleLoop N s' xs
    | some (s', false) =>
      match s'.insert N x with
      | none => none
      | some (s'', _) => toggleLoop N s'' xs

/-- btree_set.rs:209-226 `new_sym_diff`, and 434-440 `BitXor`. -/
def newSymDiff [Ord T] (N : Nat) (oa ob : Sharing T Unit) (a b : BTreeSet T) :
    Option (BTreeSet T) :=
  if b.len ≤ a.len then
    match b.intoElems ob with
    | none => none
    | some ys => toggleLoop N a ys
  else
    match a.intoElems oa with
    | none => none
    | some xs => toggleLoop N b xs

/-- btree_set.rs:358-375 `Iter::next`. -/
def iterNext (it : InnerIter (NIter (T × Unit) (Node T Unit))) :
    Option (Option T × InnerIter (NIter (T × Unit) (Node T Unit))) :=
  (nodeOps.next it).map (fun x => (x.2.map (·.1), x.1))

/-- btree_set.rs:51-56, 92-97, 300-305, 335-337 with 384-387: the iterator of a lazy set
operation. -/
def setOp (a b : BTreeSet T) : MergeIter (InnerIter (NIter (T × Unit) (Node T Unit))) T :=
  .new a.map.iter b.map.iter

/-- The first `n` calls of `next` on such an iterator. -/
def setOpRun [Ord T] (P : Nat) (a b : BTreeSet T) (n : Nat) : Option (List (Option T)) :=
  Lib.setOpRun iterNext P (a.len + b.len + 1) n (setOp a b)

/-- btree_set.rs:51-56 `difference` with 384: the first `n` results of `next`. -/
def difference [Ord T] (a b : BTreeSet T) (n : Nat) : Option (List (Option T)) := setOpRun 0b100 a b n
/-- btree_set.rs:92-97 `intersection` with 385: the first `n` results of `next`. -/
def intersection [Ord T] (a b : BTreeSet T) (n : Nat) : Option (List (Option T)) := setOpRun 0b010 a b n
/-- btree_set.rs:335-337 `union` with 386: the first `n` results of `next`. -/
def union [Ord T] (a b : BTreeSet T) (n : Nat) : Option (List (Option T)) := setOpRun 0b111 a b n
/-- btree_set.rs:300-305 `symmetric_difference` with 387: the first `n` results of `next`. -/
def symmetricDifference [Ord T] (a b : BTreeSet T) (n : Nat) : Option (List (Option T)) := setOpRun 0b101 a b n

/-- `….next().is_none()`. -/
def setOpNone [Ord T] (P : Nat) (a b : BTreeSet T) : Option Bool :=
  (setOpNext iterNext P (a.len + b.len + 1) (setOp a b)).map (fun x => x.1.isNone)

/-- btree_set.rs:110-115 `is_disjoint`. -/
def isDisjoint [Ord T] (a b : BTreeSet T) : Option Bool := setOpNone 2 a b

/-- btree_set.rs:123-130 `is_subset`. -/
def isSubset [Ord T] (a b : BTreeSet T) : Option Bool :=
  if a.isEmpty then some true
  else if a.len < b.len then setOpNone 4 a b
  else some false

/-- btree_set.rs:133-138 `is_superset`. -/
def isSuperset [Ord T] (a b : BTreeSet T) : Option Bool := isSubset b a

/-- btree_set.rs:279-286 `retain`: `self` is taken (empty now), then extended by the accepted
elements one by one; a panic of the closure leaves those accepted so far. -/
def retainLoop [Ord T] {σ : Type _} (N : Nat) (f : σ → T → Option (σ × Bool)) :
    List T → σ → BTreeSet T → BTreeMap.RetainEnd σ (BTreeSet T)
  | [], st, acc => .done st acc
  | x :: xs, st, acc =>
    match f st x with
    | none => .panicked acc
    | some (st', false) => retainLoop N f xs st' acc
    | some (st', true) =>
      match acc.insert N x with
      | none => .panicked acc
      | some (acc', _) => retainLoop N f xs st' acc'

/-- btree_set.rs:279-286 `retain`. -/
def retain [Ord T] {σ : Type _} (N : Nat) (o : Sharing T Unit) (s : BTreeSet T)
    (f : σ → T → Option (σ × Bool)) (st : σ) : BTreeMap.RetainEnd σ (BTreeSet T) :=
  match s.intoElems o with
  | none => .panicked new
  | some xs => retainLoop N f xs st new

/-- btree_set.rs:488-495 `hash`: `len`, then each element. -/
def hashSet {σ : Type _} (hLen : σ → Nat → σ) (hT : σ → T → σ) (a : BTreeSet T) (s : σ) :
    Option σ :=
  a.map.iterList.map (fun l => l.foldl (fun s e => hT s e.1) (hLen s a.map.len))
/-- btree_set.rs:523-527 `eq`: the map's, with the values `()`. -/
def eqSet (eqT : T → T → Bool) (a b : BTreeSet T) : Option Bool :=
  BTreeMap.eqMap (fun x y => eqT x.1 y.1) a.map b.map
/-- btree_set.rs:517-521 `cmp`. -/
def cmpSet (cmpT : T → T → Ordering) (a b : BTreeSet T) : Option Ordering :=
  BTreeMap.cmpMap (fun x y => cmpT x.1 y.1) a.map b.map
/-- btree_set.rs:529-533 `partial_cmp`. -/
def partialCmpSet (cmpT : T → T → Option Ordering) (a b : BTreeSet T) : Option (Option Ordering) :=
  BTreeMap.partialCmpMap (fun x y => cmpT x.1 y.1) a.map b.map

/-- Representation invariant. -/
abbrev WF [Ord T] (N : Nat) (s : BTreeSet T) : Prop := s.map.WF N

section
variable [Ord T] [TransOrd T] {N : Nat} {s a b : BTreeSet T}

theorem insert_spec (h : WF N s) (x : T) :
    ∃ s', s.insert N x = some (s', !Spec.hasKey x s.map.abs) ∧ WF N s' ∧
      s'.map.abs = Spec.insert x () s.map.abs := by
  obtain ⟨m', e, w, a⟩ := BTreeMap.insert_spec h x ()
  refine ⟨⟨m'⟩, ?_, w, a⟩
  rw [insert, e, hasKey_eq_isSome]
  cases Spec.find (compare x) s.map.abs <;> rfl

theorem removeElem_spec (hN : 1 ≤ N) (h : WF N s) {p : T → Ordering} (hp : IsProbe p) :
    ∃ s', s.removeElem N p = some (s', (Spec.find p s.map.abs).map (·.1)) ∧ WF N s' ∧
      s'.map.abs = Spec.erase p s.map.abs := by
  cases hf : Spec.find p s.map.abs with
  | some x =>
    obtain ⟨m', e, w, a⟩ := BTreeMap.remove_spec hN h hp
    refine ⟨⟨m'⟩, ?_, w, a⟩
    rw [BTreeMap.remove, BTreeMap.containsKey_spec h hp, hf] at e
    simp only [Option.isSome_some, if_true, Option.map_eq_some_iff, Prod.mk.injEq] at e
    obtain ⟨y, e, rfl, e2⟩ := e
    cases hr : s.map.root with
    | none => rw [BTreeMap.abs, hr] at hf; simp [Spec.find] at hf
    | some n =>
      obtain ⟨⟨ht, h1⟩, h2⟩ := BTreeMap.WF.root h hr
      have hs := BTreeMap.WF.sorted h
      rw [h2] at hs hf
      obtain ⟨r, er, hi⟩ := Node.remove_spec hp hN h1 (Nat.le_refl 1) hN hs
      rw [RemOk, hf] at hi
      obtain ⟨b, n', rfl, -, -⟩ := hi
      have : y.2 = some x := by
        unfold BTreeMap.rmAndRebal at e
        rw [hr] at e
        dsimp only at e
        rw [er] at e
        dsimp only at e
        split at e
        · simp at e
        · split at e
          · simp at e
          · simp only [Option.some.injEq] at e; rw [← e]
      rw [removeElem, e, Option.map_some, this]
  | none =>
    have ha : Spec.erase p s.map.abs = s.map.abs := by
      rw [find_eq_none] at hf
      exact filter_all (fun e he => by simpa using hf e he)
    refine ⟨s, ?_, h, ha.symm⟩
    unfold removeElem BTreeMap.rmAndRebal
    cases hr : s.map.root with
    | none => rfl
    | some n =>
      obtain ⟨⟨ht, h1⟩, h2⟩ := BTreeMap.WF.root h hr
      have hs := BTreeMap.WF.sorted h
      rw [h2] at hs hf
      obtain ⟨r, er, hi⟩ := Node.remove_spec hp hN h1 (Nat.le_refl 1) hN hs
      rw [RemOk, hf] at hi
      subst hi
      dsimp only
      rw [er]
      rfl

theorem take_spec (hN : 1 ≤ N) (h : WF N s) {p : T → Ordering} (hp : IsProbe p) :
    ∃ s', s.take N p = some (s', (Spec.find p s.map.abs).map (·.1)) ∧ WF N s' ∧
      s'.map.abs = Spec.erase p s.map.abs := by
  unfold take contains
  rw [BTreeMap.containsKey_spec h hp]
  cases hf : Spec.find p s.map.abs with
  | some x => simpa [hf] using removeElem_spec hN h hp
  | none =>
    refine ⟨s, rfl, h, ?_⟩
    rw [find_eq_none] at hf
    exact (filter_all (fun e he => by simpa using hf e he)).symm

theorem remove_spec (hN : 1 ≤ N) (h : WF N s) {p : T → Ordering} (hp : IsProbe p) :
    ∃ s', s.remove N p = some (s', (Spec.find p s.map.abs).isSome) ∧ WF N s' ∧
      s'.map.abs = Spec.erase p s.map.abs := by
  obtain ⟨m', e, w, a⟩ := BTreeMap.remove_spec hN h hp
  exact ⟨⟨m'⟩, by rw [remove, e]; simp, w, a⟩

theorem replace_spec (hN : 1 ≤ N) (h : WF N s) (x : T) :
    ∃ s', s.replace N x = some (s', (Spec.find (compare x) s.map.abs).map (·.1)) ∧ WF N s' ∧
      s'.map.abs = Spec.insert x () s.map.abs := by
  obtain ⟨s1, e1, w1, a1⟩ := removeElem_spec hN h (isProbe_compare x)
  obtain ⟨s2, e2, w2, a2⟩ := insert_spec w1 x
  refine ⟨s2, by rw [replace, e1]; dsimp only; rw [e2]; rfl, w2, ?_⟩
  rw [a2, a1]
  simp only [Spec.insert, Spec.erase, List.filter_filter]
  congr 1
  · apply List.filter_congr; intro e _; cases compare x e.1 <;> rfl
  · congr 1; apply List.filter_congr; intro e _; cases compare x e.1 <;> rfl

theorem extend_spec (h : WF N s) (xs : List T) :
    ∃ s', s.extend N xs = some s' ∧ WF N s' ∧
      s'.map.abs = Spec.insertAll s.map.abs (xs.map (fun x => (x, ()))) := by
  induction xs generalizing s with
  | nil => exact ⟨s, rfl, h, rfl⟩
  | cons x xs ih =>
    obtain ⟨s1, e1, w1, a1⟩ := insert_spec h x
    obtain ⟨s2, e2, w2, a2⟩ := ih w1
    exact ⟨s2, by simp [extend, e1, e2], w2, by rw [a2, a1]; rfl⟩

theorem elems_map (s : BTreeSet T) : s.elems.map (fun x => (x, ())) = s.map.abs := by
  simp [elems, Function.comp_def]

theorem intoElems_spec (hN : 1 ≤ N) (h : WF N s) (o : Sharing T Unit) :
    s.intoElems o = some s.elems := by
  rw [intoElems, BTreeMap.intoList_spec hN h]; rfl

theorem fromIter_filter (h : WF N s) (f : T → Bool) :
    ∃ s', fromIter N (s.elems.filter f) = some s' ∧ WF N s' ∧
      s'.map.abs = s.map.abs.filter (fun e => f e.1) := by
  obtain ⟨s', e, w, a⟩ := extend_spec (s := new) (N := N) BTreeMap.wf_new (s.elems.filter f)
  refine ⟨s', e, w, ?_⟩
  have : (s.elems.filter f).map (fun x => (x, ())) = s.map.abs.filter (fun e => f e.1) := by
    rw [← elems_map s, List.filter_map]; rfl
  rw [a, this]
  exact Spec.insertAll_sorted (BTreeMap.WF.sorted h |>.filter _)

theorem removeLoop_spec (hN : 1 ≤ N) (h : WF N s) (xs : List T) :
    ∃ s', s.removeLoop N xs = some s' ∧ WF N s' ∧ s'.map.abs =
      s.map.abs.filter (fun e => xs.all (fun x => compare x e.1 != .eq)) := by
  induction xs generalizing s with
  | nil => exact ⟨s, rfl, h, by simp [filter_all]⟩
  | cons x xs ih =>
    obtain ⟨s1, e1, w1, a1⟩ := remove_spec hN h (isProbe_compare x)
    obtain ⟨s2, e2, w2, a2⟩ := ih w1
    refine ⟨s2, by simp [removeLoop, e1, e2], w2, ?_⟩
    rw [a2, a1, Spec.erase, List.filter_filter]
    apply List.filter_congr; intro e _; simp [Bool.and_comm]

theorem contains_spec (h : WF N s) (x : T) :
    s.contains (compare x) = Spec.hasKey x s.map.abs := by
  rw [contains, BTreeMap.containsKey_spec h (isProbe_compare x), hasKey_eq_isSome]

theorem newDiff_spec (hN : 1 ≤ N) (ha : WF N a) (hb : WF N b) (oa ob : Sharing T Unit) :
    ∃ s, newDiff N oa ob a b = some s ∧ WF N s ∧ s.map.abs = Spec.diff a.map.abs b.map.abs := by
  unfold newDiff
  split
  · rw [intoElems_spec hN ha]
    obtain ⟨s, e, w, x⟩ := fromIter_filter ha (fun k => !b.contains (compare k))
    refine ⟨s, e, w, ?_⟩
    rw [x, Spec.diff]
    apply List.filter_congr; intro e _; rw [contains_spec hb]
  · rw [intoElems_spec hN hb]
    obtain ⟨s, e, w, x⟩ := removeLoop_spec hN ha b.elems
    refine ⟨s, e, w, ?_⟩
    rw [x, Spec.diff]
    apply List.filter_congr; intro e _
    rw [Bool.eq_iff_iff]
    simp only [List.all_eq_true, bne_iff_ne, ne_eq, Bool.not_eq_true', ← Bool.not_eq_true,
      hasKey_iff, elems, List.mem_map, forall_exists_index, and_imp, forall_apply_eq_imp_iff₂,
      not_exists, not_and]
    constructor
    · intro h y hy hc; exact h y hy (cmp_eq_symm hc)
    · intro h y hy hc; exact h y hy (cmp_eq_symm hc)

theorem newIntersection_spec (hN : 1 ≤ N) (ha : WF N a) (hb : WF N b) (oa ob : Sharing T Unit) :
    ∃ s, newIntersection N oa ob a b = some s ∧ WF N s ∧ s.map.abs =
      if a.len < b.len then Spec.inter a.map.abs b.map.abs else Spec.inter b.map.abs a.map.abs := by
  unfold newIntersection
  split
  · rw [intoElems_spec hN ha]
    obtain ⟨s, e, w, x⟩ := fromIter_filter ha (fun k => b.contains (compare k))
    refine ⟨s, e, w, ?_⟩
    rw [x, Spec.inter]
    apply List.filter_congr; intro e _; rw [contains_spec hb]
  · rw [intoElems_spec hN hb]
    obtain ⟨s, e, w, x⟩ := fromIter_filter hb (fun k => a.contains (compare k))
    refine ⟨s, e, w, ?_⟩
    rw [x, Spec.inter]
    apply List.filter_congr; intro e _; rw [contains_spec ha]

theorem orInsert_spec (h : WF N s) (x : T) :
    ∃ m, (btreeTrait T Unit N).orInsert s.map x () id = some m ∧ m.WF N ∧
      m.abs = if Spec.hasKey x s.map.abs then s.map.abs else Spec.insert x () s.map.abs := by
  have hp := isProbe_compare x
  have upd : ∀ l : List (T × Unit), updAt (compare x) id l = l := by
    intro l
    simp only [updAt]
    refine (List.map_congr_left ?_).trans (List.map_id _)
    intro e _; split <;> rfl
  have hc : s.map.containsKey (compare x) = Spec.hasKey x s.map.abs := contains_spec h x
  by_cases hk : Spec.hasKey x s.map.abs = true
  · obtain ⟨w, a, -, g⟩ := BTreeMap.getMut_spec h hp id
    rw [← hasKey_eq_isSome, hk] at g
    refine ⟨(s.map.getMut (compare x) id).1, ?_, w, by rw [a, upd, if_pos hk]⟩
    simp only [Lib.MapTrait.orInsert, Lib.MapTrait.orInsertWithKey, btreeTrait, hc, hk, if_true, g,
      Option.map_some]
  · obtain ⟨m1, e1, w1, a1⟩ := BTreeMap.insert_spec h x ()
    obtain ⟨w, a, -, g⟩ := BTreeMap.getMut_spec w1 hp id
    have g' : (m1.getMut (compare x) id).2 = true := by
      rw [g, a1, find_insert (BTreeMap.WF.sorted h) hp]; simp
    refine ⟨(m1.getMut (compare x) id).1, ?_, w, by rw [a, upd, if_neg hk, a1]⟩
    simp only [Lib.MapTrait.orInsert, Lib.MapTrait.orInsertWithKey, btreeTrait, hc, hk,
      Bool.false_eq_true, if_false, e1, g', if_true, Option.map_some]

theorem entryLoop_spec (h : WF N s) (xs : List T) (hx : xs.Pairwise (fun x y => compare x y = .lt)) :
    ∃ s', s.entryLoop N xs = some s' ∧ WF N s' ∧ ∀ p, IsProbe p →
      Spec.find p s'.map.abs =
        (Spec.find p s.map.abs).or (Spec.find p (xs.map (fun x => (x, ())))) := by
  induction xs generalizing s with
  | nil => exact ⟨s, rfl, h, by simp [Spec.find]⟩
  | cons x xs ih =>
    obtain ⟨m, e1, w1, a1⟩ := orInsert_spec h x
    obtain ⟨s2, e2, w2, a2⟩ := ih (s := ⟨m⟩) w1 (List.pairwise_cons.1 hx).2
    refine ⟨s2, by simp [entryLoop, e1, e2], w2, ?_⟩
    intro p hp
    have hc : ∀ y, (Spec.find p ((x, ()) :: y) : Option (T × Unit)) =
        if p x = .eq then some (x, ()) else Spec.find p y := by
      intro y; simp only [Spec.find, List.find?_cons]
      by_cases h : p x = .eq
      · simp [h]
      · have : (p x == .eq) = false := by simpa using h
        simp only [this, h, if_false]
    rw [a2 p hp, List.map_cons, hc, a1]
    by_cases hk : Spec.hasKey x s.map.abs = true
    · simp only [hk, if_true]
      by_cases hpx : p x = .eq
      · obtain ⟨e, he, hxe⟩ := hasKey_iff.1 hk
        have : Spec.find p s.map.abs = some e :=
          (find_eq_some hp (BTreeMap.WF.sorted h)).2 ⟨he, by rw [← hp.congr _ _ hxe, hpx]⟩
        simp [this]
      · simp [hpx]
    · simp only [hk, Bool.false_eq_true, if_false]
      rw [find_insert (BTreeMap.WF.sorted h) hp]
      by_cases hpx : p x = .eq
      · have : Spec.find p s.map.abs = none := by
          rw [find_eq_none]
          intro e he hpe
          exact hk (hasKey_iff.2 ⟨e, he, probe_eq_imp hp hpx hpe⟩)
        simp [hpx, this]
      · simp [hpx]

theorem asc_elems (h : WF N s) : s.elems.Pairwise (fun x y => compare x y = .lt) := by
  rw [elems, List.pairwise_map]; exact BTreeMap.WF.sorted h

theorem newUnion_spec (hN : 1 ≤ N) (ha : WF N a) (hb : WF N b) (oa ob : Sharing T Unit) :
    ∃ s, newUnion N oa ob a b = some s ∧ WF N s ∧ s.map.abs = Spec.union a.map.abs b.map.abs := by
  unfold newUnion
  split
  · rw [intoElems_spec hN ha]
    obtain ⟨s, e, w, x⟩ := entryLoop_spec hb a.elems (asc_elems ha)
    refine ⟨s, e, w, ?_⟩
    refine (BTreeMap.WF.sorted w).ext_find (Spec.sorted_union (BTreeMap.WF.sorted ha)) ?_
    intro q
    rw [x _ (isProbe_compare q), Spec.find_union (isProbe_compare q) (BTreeMap.WF.sorted ha)
      (BTreeMap.WF.sorted hb), elems_map]
  · rw [intoElems_spec hN hb]
    obtain ⟨s, e, w, x⟩ := extend_spec ha b.elems
    exact ⟨s, e, w, by rw [x, elems_map]; rfl⟩

theorem toggleLoop_spec (hN : 1 ≤ N) (h : WF N s) (xs : List T)
    (hx : xs.Pairwise (fun x y => compare x y = .lt)) :
    ∃ s', s.toggleLoop N xs = some s' ∧ WF N s' ∧ ∀ q,
      Spec.find (compare q) s'.map.abs =
        match Spec.find (compare q) s.map.abs, Spec.find (compare q) (xs.map (fun x => (x, ()))) with
        | some x, none => some x
        | none, some y => some y
        | _, _ => none := by
  induction xs generalizing s with
  | nil =>
    refine ⟨s, rfl, h, ?_⟩
    intro q
    simp only [List.map_nil, Spec.find, List.find?_nil]
    cases s.map.abs.find? (fun e => compare q e.1 == .eq) <;> rfl
  | cons x xs ih =>
    have hs := BTreeMap.WF.sorted h
    obtain ⟨s1, e1, w1, a1⟩ := remove_spec hN h (isProbe_compare x)
    have hxs := (List.pairwise_cons.1 hx).1
    have hnx : ∀ q, compare q x = .eq →
        Spec.find (compare q) (xs.map (fun x => (x, ()))) = none := by
      intro q hq
      rw [find_eq_none]
      intro e he
      obtain ⟨y, hy, rfl⟩ := List.mem_map.1 he
      show compare q y ≠ .eq
      rw [cmp_congr_left hq, hxs y hy]; simp
    have hc : ∀ q, (Spec.find (compare q) ((x, ()) :: xs.map (fun x => (x, ()))) : Option (T × Unit)) =
        if compare q x = .eq then some (x, ()) else Spec.find (compare q) (xs.map (fun x => (x, ()))) := by
      intro q; simp only [Spec.find, List.find?_cons]
      by_cases h : compare q x = .eq
      · simp [h]
      · have : (compare q x == .eq) = false := by simpa using h
        simp only [this, h, if_false]
    have hsame : ∀ q, compare q x = .eq →
        Spec.find (compare q) s.map.abs = Spec.find (compare x) s.map.abs := by
      intro q hq
      simp only [Spec.find]
      congr 1; funext e; rw [cmp_congr_left hq]
    have herase : ∀ q, compare q x ≠ .eq →
        Spec.find (compare q) s1.map.abs = Spec.find (compare q) s.map.abs := by
      intro q hq
      rw [a1, find_erase hs (isProbe_compare x) (isProbe_compare q)]
      cases hf : Spec.find (compare q) s.map.abs with
      | none => rfl
      | some e =>
        have := ((find_eq_some (isProbe_compare q) hs).1 hf).2
        rw [Option.filter_some, if_pos]
        rw [bne_iff_ne]
        intro h2
        exact hq (by rw [cmp_congr_left this]; exact cmp_eq_symm h2)
    cases hf : Spec.find (compare x) s.map.abs with
    | some e0 =>
      obtain ⟨s2, e2, w2, a2⟩ := ih w1 (List.pairwise_cons.1 hx).2
      refine ⟨s2, by simp [toggleLoop, e1, hf, e2], w2, ?_⟩
      intro q
      rw [a2 q, List.map_cons, hc q]
      by_cases hq : compare q x = .eq
      · have : Spec.find (compare q) s1.map.abs = none := by
          rw [find_eq_none, a1]
          intro e he hqe
          have h3 := (List.mem_filter.1 he).2
          rw [← cmp_congr_left hq, hqe] at h3
          simp at h3
        rw [this, hnx q hq, hsame q hq, hf]; simp [hq]
      · rw [herase q hq]; simp [hq]
    | none =>
      obtain ⟨s2, e2, w2, a2⟩ := insert_spec w1 x
      obtain ⟨s3, e3, w3, a3⟩ := ih w2 (List.pairwise_cons.1 hx).2
      refine ⟨s3, by simp [toggleLoop, e1, hf, e2, e3], w3, ?_⟩
      intro q
      rw [a3 q, List.map_cons, hc q, a2, find_insert (BTreeMap.WF.sorted w1) (isProbe_compare q)]
      by_cases hq : compare q x = .eq
      · rw [hnx q hq, hsame q hq, hf]; simp [hq]
      · rw [herase q hq]; simp [hq]

theorem newSymDiff_spec (hN : 1 ≤ N) (ha : WF N a) (hb : WF N b) (oa ob : Sharing T Unit) :
    ∃ s, newSymDiff N oa ob a b = some s ∧ WF N s ∧
      s.map.abs = Spec.symDiff a.map.abs b.map.abs := by
  have sa := BTreeMap.WF.sorted ha
  have sb := BTreeMap.WF.sorted hb
  unfold newSymDiff
  split
  · rw [intoElems_spec hN hb]
    obtain ⟨s, e, w, x⟩ := toggleLoop_spec hN ha b.elems (asc_elems hb)
    refine ⟨s, e, w, (BTreeMap.WF.sorted w).ext_find (Spec.sorted_symDiff sa) ?_⟩
    intro q
    rw [x q, Spec.find_symDiff q sa sb, elems_map]
    cases Spec.find (compare q) a.map.abs <;> cases Spec.find (compare q) b.map.abs <;> rfl
  · rw [intoElems_spec hN ha]
    obtain ⟨s, e, w, x⟩ := toggleLoop_spec hN hb a.elems (asc_elems ha)
    refine ⟨s, e, w, (BTreeMap.WF.sorted w).ext_find (Spec.sorted_symDiff sa) ?_⟩
    intro q
    rw [x q, Spec.find_symDiff q sa sb, elems_map]
    cases Spec.find (compare q) a.map.abs <;> cases Spec.find (compare q) b.map.abs <;> rfl

/-- Run the closure over the elements in order: the outcome and the elements accepted so far. -/
def visit {σ : Type _} (f : σ → T → Option (σ × Bool)) : σ → List T → Option σ × List T
  | s, [] => (some s, [])
  | s, x :: xs =>
    match f s x with
    | none => (none, [])
    | some (s', b) => ((visit f s' xs).1, if b then x :: (visit f s' xs).2 else (visit f s' xs).2)

theorem visit_sublist {σ : Type _} (f : σ → T → Option (σ × Bool)) (xs : List T) : ∀ s,
    (visit f s xs).2.Sublist xs := by
  induction xs with
  | nil => intro s; exact List.Sublist.refl _
  | cons x xs ih =>
    intro s
    simp only [visit]
    split
    · exact List.nil_sublist _
    · rename_i s' b _
      cases b
      · exact (ih _).cons _
      · exact (ih _).cons_cons _

theorem retainLoop_spec {σ : Type _} (f : σ → T → Option (σ × Bool)) (xs : List T) :
    ∀ (st : σ) (acc : BTreeSet T), WF N acc →
    ∃ acc', WF N acc' ∧
      acc'.map.abs = Spec.insertAll acc.map.abs ((visit f st xs).2.map (fun x => (x, ()))) ∧
      retainLoop N f xs st acc = match (visit f st xs).1 with
        | none => .panicked acc'
        | some st' => .done st' acc' := by
  induction xs with
  | nil => intro st acc h; exact ⟨acc, h, rfl, rfl⟩
  | cons x xs ih =>
    intro st acc h
    simp only [retainLoop, visit]
    cases hf : f st x with
    | none => exact ⟨acc, h, rfl, rfl⟩
    | some y =>
      obtain ⟨st', b⟩ := y
      cases b with
      | false => simpa using ih st' acc h
      | true =>
        obtain ⟨s1, e1, w1, a1⟩ := insert_spec h x
        obtain ⟨acc', w', a', e'⟩ := ih st' s1 w1
        refine ⟨acc', w', ?_, ?_⟩
        · rw [a', a1]; rfl
        · simp only [e1]; exact e'

theorem retain_spec {σ : Type _} (hN : 1 ≤ N) (h : WF N s) (o : Sharing T Unit)
    (f : σ → T → Option (σ × Bool)) (st : σ) :
    ∃ s', WF N s' ∧ s'.elems = (visit f st s.elems).2 ∧
      s.retain N o f st = match (visit f st s.elems).1 with
        | none => .panicked s'
        | some st' => .done st' s' := by
  obtain ⟨s', w, a, e⟩ := retainLoop_spec (N := N) f s.elems st new BTreeMap.wf_new
  refine ⟨s', w, ?_, by rw [retain, intoElems_spec hN h]; exact e⟩
  have hs : Sorted ((visit f st s.elems).2.map (fun x => (x, ()))) := by
    rw [Sorted, List.pairwise_map]
    exact (asc_elems h).sublist (visit_sublist f s.elems st)
  have : s'.map.abs = (visit f st s.elems).2.map (fun x => (x, ())) := by
    rw [a]; exact Spec.insertAll_sorted hs
  rw [elems, this]; simp [Function.comp_def]

theorem iter_yields (hN : 1 ≤ N) (h : WF N s) : Yields iterNext s.map.iter s.elems := by
  refine ⟨fun it l => (∀ x ∈ it.work, x.Ok true (fun c => ∃ h, IterOk true h c)) ∧
    (witems toList it.work).length ≤ it.len ∧ l = (witems toList it.work).map (·.1), ?_, ?_⟩
  · rintro it l ⟨h1, h2, rfl⟩
    obtain ⟨it', e, h3, h4, h5⟩ := (nodeSpec true).next h1 h2
    refine ⟨it', ?_, h3, ?_, ?_⟩
    · have e' : nodeOps.next it = _ := e
      rw [iterNext, e']; simp
    · rw [h4] at h5 ⊢; simp only [List.length_tail] at h5 ⊢; omega
    · rw [h4]; simp
  · have hl := BTreeMap.WF.len_eq h
    unfold BTreeMap.iter elems
    cases hr : s.map.root with
    | none => exact ⟨by simp [iterOf], by simp [iterOf], by simp [iterOf, BTreeMap.abs, hr]⟩
    | some n =>
      obtain ⟨⟨ht, h1⟩, h2⟩ := BTreeMap.WF.root h hr
      obtain ⟨m1, m2, -⟩ := (nodeSpec true).make_ok (c := n)
        ⟨ht + 1, h1.iterOk hN true (Nat.le_refl 1)⟩
      have hw : witems toList [(borrowedOps Node.elems Node.kids Node.depth).make n] = toList n := by
        rw [witems_cons, m2]; simp
      rw [h2] at hl ⊢
      simp only [iterOf, nodeOps, hw]
      exact ⟨by simpa using m1, by omega, trivial⟩

theorem setOp_fuel (ha : WF N a) (hb : WF N b) :
    (mergeList a.elems b.elems).length < a.len + b.len + 1 := by
  have := mergeList_length a.elems b.elems
  have h1 := BTreeMap.WF.len_eq ha
  have h2 := BTreeMap.WF.len_eq hb
  simp only [elems, List.length_map, len] at *
  omega

theorem setOpRun_spec (hN : 1 ≤ N) (ha : WF N a) (hb : WF N b) (P n : Nat) :
    setOpRun P a b n = some ((List.range n).map (fun i => (setOpList P a.elems b.elems)[i]?)) :=
  Lib.setOpRun_spec P _ n (s := setOp a b) (iter_yields hN ha) (iter_yields hN hb) (setOp_fuel ha hb)

theorem setOpNone_spec (hN : 1 ≤ N) (ha : WF N a) (hb : WF N b) (P : Nat) :
    setOpNone P a b = some (setOpList P a.elems b.elems).isEmpty := by
  obtain ⟨s', _, _, e, -⟩ := setOpNext_spec P _ (s := setOp a b) (iter_yields hN ha)
    (iter_yields hN hb) (setOp_fuel ha hb)
  rw [setOpNone, e]
  cases setOpList P a.elems b.elems <;> rfl

end
end BTreeSet

/-- Reachable `BTreeSet`s: those produced by some history of public operations, with any
sharing of nodes.  A caught panic of the closure of `retain` is included. -/
inductive SetReachable {T : Type} [Ord T] (N : Nat) : BTreeSet T → Prop
  | new : SetReachable N .new
  | clear {s} : SetReachable N s → SetReachable N s.clear
  | insert {s s' x b} : SetReachable N s → s.insert N x = some (s', b) → SetReachable N s'
  | remove {s s' p b} : SetReachable N s → IsProbe p → s.remove N p = some (s', b) →
      SetReachable N s'
  | take {s s' p o} : SetReachable N s → IsProbe p → s.take N p = some (s', o) → SetReachable N s'
  | replace {s s' x o} : SetReachable N s → s.replace N x = some (s', o) → SetReachable N s'
  | popFirst {s s' o} : SetReachable N s → s.popFirst N = some (s', o) → SetReachable N s'
  | popLast {s s' o} : SetReachable N s → s.popLast N = some (s', o) → SetReachable N s'
  | appendL {a b a' b' o} : SetReachable N a → SetReachable N b → a.append N o b = some (a', b') →
      SetReachable N a'
  | appendR {a b a' b' o} : SetReachable N a → SetReachable N b → a.append N o b = some (a', b') →
      SetReachable N b'
  | splitL {s p a b o} : SetReachable N s → IsProbe p → s.splitOff N o p = some (a, b) →
      SetReachable N a
  | splitR {s p a b o} : SetReachable N s → IsProbe p → s.splitOff N o p = some (a, b) →
      SetReachable N b
  | union {a b s oa ob} : SetReachable N a → SetReachable N b →
      BTreeSet.newUnion N oa ob a b = some s → SetReachable N s
  | inter {a b s oa ob} : SetReachable N a → SetReachable N b →
      BTreeSet.newIntersection N oa ob a b = some s → SetReachable N s
  | diff {a b s oa ob} : SetReachable N a → SetReachable N b →
      BTreeSet.newDiff N oa ob a b = some s → SetReachable N s
  | symDiff {a b s oa ob} : SetReachable N a → SetReachable N b →
      BTreeSet.newSymDiff N oa ob a b = some s → SetReachable N s
  | retain {s s' : BTreeSet T} {σ : Type} {f : σ → T → Option (σ × Bool)} {st st' o} :
      SetReachable N s → s.retain N o f st = .done st' s' → SetReachable N s'
  | retainPanic {s s' : BTreeSet T} {σ : Type} {f : σ → T → Option (σ × Bool)} {st o} :
      SetReachable N s → s.retain N o f st = .panicked s' → SetReachable N s'
  | extend {s s' xs} : SetReachable N s → s.extend N xs = some s' → SetReachable N s'
  /-- `Deserialize` is derived (btree_set.rs:6-11): a struct with the field `map` -/
  | deserialize {debug u hint es err m} : (∀ n, hint = some n → n < u) →
      deserialize N debug u hint es err = some (.ok m) → SetReachable N ⟨m⟩

theorem SetReachable.wf {T : Type} [Ord T] [TransOrd T] {N : Nat} (hN : 1 ≤ N) {s : BTreeSet T}
    (h : SetReachable N s) : s.WF N := by
  induction h with
  | new => exact BTreeMap.wf_new
  | clear => exact BTreeMap.wf_new
  | @insert s s' x b _ e ih =>
    obtain ⟨s1, e1, w, -⟩ := BTreeSet.insert_spec ih x
    rw [e1] at e; cases e; exact w
  | remove _ hp e ih =>
    obtain ⟨s1, e1, w, -⟩ := BTreeSet.remove_spec hN ih hp
    rw [e1] at e; cases e; exact w
  | take _ hp e ih =>
    obtain ⟨s1, e1, w, -⟩ := BTreeSet.take_spec hN ih hp
    rw [e1] at e; cases e; exact w
  | @replace s s' x o _ e ih =>
    obtain ⟨s1, e1, w, -⟩ := BTreeSet.replace_spec hN ih x
    rw [e1] at e; cases e; exact w
  | popFirst _ e ih =>
    obtain ⟨m1, e1, w, -⟩ := BTreeMap.popFirst_spec hN ih
    rw [BTreeSet.popFirst, e1] at e; cases e; exact w
  | popLast _ e ih =>
    obtain ⟨m1, e1, w, -⟩ := BTreeMap.popLast_spec hN ih
    rw [BTreeSet.popLast, e1] at e; cases e; exact w
  | @appendL _ _ _ _ o _ _ e iha ihb =>
    obtain ⟨m1, e1, w, -⟩ := BTreeMap.append_spec hN iha ihb o
    rw [BTreeSet.append, e1] at e; cases e; exact w
  | @appendR _ _ _ _ o _ _ e iha ihb =>
    obtain ⟨m1, e1, w, -⟩ := BTreeMap.append_spec hN iha ihb o
    rw [BTreeSet.append, e1] at e; cases e; exact BTreeMap.wf_new
  | @splitL _ p _ _ o _ hp e ih =>
    obtain ⟨m1, m2, e1, w1, w2, -⟩ := BTreeMap.splitOff_spec hN ih o p
    rw [BTreeSet.splitOff, e1] at e; cases e; exact w1
  | @splitR _ p _ _ o _ hp e ih =>
    obtain ⟨m1, m2, e1, w1, w2, -⟩ := BTreeMap.splitOff_spec hN ih o p
    rw [BTreeSet.splitOff, e1] at e; cases e; exact w2
  | @union _ _ _ oa ob _ _ e iha ihb =>
    obtain ⟨s1, e1, w, -⟩ := BTreeSet.newUnion_spec hN iha ihb oa ob
    rw [e1] at e; cases e; exact w
  | @inter _ _ _ oa ob _ _ e iha ihb =>
    obtain ⟨s1, e1, w, -⟩ := BTreeSet.newIntersection_spec hN iha ihb oa ob
    rw [e1] at e; cases e; exact w
  | @diff _ _ _ oa ob _ _ e iha ihb =>
    obtain ⟨s1, e1, w, -⟩ := BTreeSet.newDiff_spec hN iha ihb oa ob
    rw [e1] at e; cases e; exact w
  | @symDiff _ _ _ oa ob _ _ e iha ihb =>
    obtain ⟨s1, e1, w, -⟩ := BTreeSet.newSymDiff_spec hN iha ihb oa ob
    rw [e1] at e; cases e; exact w
  | @retain s s' σ f st st' o _ e ih =>
    obtain ⟨s1, w, -, e1⟩ := BTreeSet.retain_spec hN ih o f st
    rw [e1] at e
    split at e
    · simp at e
    · cases e; exact w
  | @retainPanic s s' σ f st o _ e ih =>
    obtain ⟨s1, w, -, e1⟩ := BTreeSet.retain_spec hN ih o f st
    rw [e1] at e
    split at e
    · cases e; exact w
    · simp at e
  | @extend s s' xs _ e ih =>
    obtain ⟨s1, e1, w, -⟩ := BTreeSet.extend_spec ih xs
    rw [e1] at e; cases e; exact w
  | deserialize hh e => exact (Reachable.deserialize hh e).wf hN

end Verif.BTree
