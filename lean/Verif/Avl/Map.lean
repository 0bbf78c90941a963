import Verif.Avl.Misc
import Verif.Avl.Iter
/-!
# Model of the `AvlMap` API (avl.rs:230-1893, 2276-2308)

A mutating method maps the old map (and arguments) to `some (new map, result)`, or
`none` if the call panics (including `usize` underflow of `len`).
-/
set_option linter.unusedSectionVars false
namespace Verif.Avl
open Tree
variable {K V : Type _}

/-- avl.rs:231-234 `AvlMap`. -/
structure AvlMap (K V : Type _) where
  len : Nat
  root : Tree K V
  deriving DecidableEq, Repr

namespace AvlMap

/-- The entries of the map in key order (abstraction function; `iter` yields exactly these,
C11). -/
def abs (m : AvlMap K V) : List (K × V) := m.root.toList

/-- avl.rs:1359-1361 `new`. -/
def new : AvlMap K V := ⟨0, .nil⟩

/-- avl.rs:1009-1012 `clear`. -/
def clear (_ : AvlMap K V) : AvlMap K V := ⟨0, .nil⟩

/-- avl.rs:1145-1153 `insert`. -/
def insert [Ord K] (m : AvlMap K V) (k : K) (v : V) : Option (AvlMap K V × Option V) :=
  match ins k v m.root with
  | none => none
  | some (t, old, _) => some (⟨m.len + (if old.isNone then 1 else 0), t⟩, old)

/-- `self.len -= 1` and return: shared by 1503-1531 and 1732-1742. -/
def popWith (len : Nat) (r : Option (Tree K V × Option (K × V) × Bool)) :
    Option (AvlMap K V × Option (K × V)) :=
  match r with
  | none => none
  | some (t, none, _) => some (⟨len, t⟩, none)
  | some (t, some kv, _) => if len = 0 then none else some (⟨len - 1, t⟩, some kv)

/-- avl.rs:1732-1742 `remove_entry` (`remove`, 1711-1718, projects the value). -/
def removeEntry (m : AvlMap K V) (p : K → Ordering) : Option (AvlMap K V × Option (K × V)) :=
  popWith m.len (rm p m.root)

/-- avl.rs:1711-1718 `remove`. -/
def remove (m : AvlMap K V) (p : K → Ordering) : Option (AvlMap K V × Option V) :=
  (m.removeEntry p).map (fun x => (x.1, x.2.map (·.2)))

/-- avl.rs:1503-1511 `pop_first`. -/
def popFirst (m : AvlMap K V) : Option (AvlMap K V × Option (K × V)) :=
  popWith m.len (rmLeftmost m.root)

/-- avl.rs:1523-1531 `pop_last`. -/
def popLast (m : AvlMap K V) : Option (AvlMap K V × Option (K × V)) :=
  popWith m.len (rmRightmost m.root)

/-- avl.rs:1087-1102 `get_key_value`. -/
def getKeyValue (m : AvlMap K V) (p : K → Ordering) : Option (K × V) := m.root.getKeyValue p

/-- avl.rs:1070-1076 `get`. -/
def get (m : AvlMap K V) (p : K → Ordering) : Option V := (m.getKeyValue p).map (·.2)

/-- avl.rs:1015-1021 `contains_key`. -/
def containsKey (m : AvlMap K V) (p : K → Ordering) : Bool := (m.get p).isSome

/-- avl.rs:302-315 `Index::index`; `none` is the panic. -/
def index (m : AvlMap K V) (p : K → Ordering) : Option V := m.get p

/-- avl.rs:1116-1133 `get_mut`, followed by replacing the value `v` behind the returned
reference by `g v`; the flag tells whether a reference was returned. -/
def getMut (m : AvlMap K V) (p : K → Ordering) (g : V → V) : AvlMap K V × Bool :=
  let x := getMutWith p g m.root
  (⟨m.len, x.1⟩, x.2)

/-- avl.rs:1051-1057. -/
def firstKeyValue (m : AvlMap K V) : Option (K × V) := m.root.first
/-- avl.rs:1337-1345. -/
def lastKeyValue (m : AvlMap K V) : Option (K × V) := m.root.last
/-- avl.rs:1221-1223. -/
def isEmpty (m : AvlMap K V) : Bool := m.len == 0

/-- avl.rs:998-1006 `append`: the new `self` and the new `other`. -/
def append [Ord K] (m other : AvlMap K V) : Option (AvlMap K V × AvlMap K V) :=
  (union m.root other.root).map (fun t => (⟨t.size, t⟩, ⟨0, .nil⟩))

/-- avl.rs:1483-1491 `new_union`. -/
def newUnion [Ord K] (l r : AvlMap K V) : Option (AvlMap K V) :=
  (union l.root r.root).map (fun t => ⟨t.size, t⟩)
/-- avl.rs:1399-1407 `new_intersect`. -/
def newIntersect [Ord K] (l r : AvlMap K V) : Option (AvlMap K V) :=
  (intersect l.root r.root).map (fun t => ⟨t.size, t⟩)
/-- avl.rs:1376-1384 `new_diff`. -/
def newDiff [Ord K] (l r : AvlMap K V) : Option (AvlMap K V) :=
  (diff l.root r.root).map (fun t => ⟨t.size, t⟩)
/-- avl.rs:1459-1467 `new_sym_diff`. -/
def newSymDiff [Ord K] (l r : AvlMap K V) : Option (AvlMap K V) :=
  (symDiff l.root r.root).map (fun t => ⟨t.size, t⟩)

/-- avl.rs:1431-1443 `new_join`; the two `debug_assert!`s are in force iff `debug`. -/
def newJoin [Ord K] (debug : Bool) (l : AvlMap K V) (k : K) (v : V) (r : AvlMap K V) :
    Option (AvlMap K V) :=
  if debug && !(l.lastKeyValue.all (fun e => compare e.1 k == .lt)) then none
  else if debug && !(r.firstKeyValue.all (fun e => compare k e.1 == .lt)) then none
  else (join l.root k v r.root).map (fun t => ⟨l.len + 1 + r.len, t⟩)

/-- avl.rs:1784-1806 `split_off`: the remaining `self` and the returned map.
`self.len - len_lhs` panics on underflow. -/
def splitOff [Ord K] (m : AvlMap K V) (p : K → Ordering) : Option (AvlMap K V × AvlMap K V) :=
  match split p m.root with
  | none => none
  | some (lhs, kv, rhs) =>
    if m.len < lhs.size then none
    else
      match kv with
      | none => some (⟨lhs.size, lhs⟩, ⟨m.len - lhs.size, rhs⟩)
      | some (k, v) =>
        (ins k v rhs).map (fun x => (⟨lhs.size, lhs⟩, ⟨m.len - lhs.size, x.1⟩))

/-- How a `retain` call ends: normally, with the closure's final state, or by a panic that
unwinds out of it, in which case a caller that catches it (or a destructor) still sees the
map. -/
inductive RetainEnd (σ M : Type _) where
  | done (s : σ) (m : M)
  | panicked (m : M)

/-- avl.rs:1759-1768 `retain`.  `self.root.take()` (1765) happens before any call of the
closure, and `root`/`len` are written back after the traversal, so a panic leaves `root`
empty and `len` unchanged. -/
def retain {σ : Type _} (m : AvlMap K V) (f : σ → K → V → Option (σ × V × Bool)) (s : σ) :
    RetainEnd σ (AvlMap K V) :=
  match m.root.retain f s with
  | none => .panicked ⟨m.len, .nil⟩
  | some (s', t, n) => .done s' ⟨n, t⟩

/-- avl.rs:1864-1868 `for_each`. -/
def forEach {σ : Type _} (m : AvlMap K V) (f : σ → K → V → σ) (s : σ) : σ := m.root.forEach f s

/-- avl.rs:1885-1893 `for_each_mut`. -/
def forEachMut {σ : Type _} (m : AvlMap K V) (f : σ → K → V → σ × V) (s : σ) :
    σ × AvlMap K V :=
  let x := m.root.forEachMut f s
  (x.1, ⟨m.len, x.2⟩)

/-- avl.rs:2276-2290 `extend` (both impls; the borrowed one clones). -/
def extend [Ord K] (m : AvlMap K V) : List (K × V) → Option (AvlMap K V)
  | [] => some m
  | (k, v) :: es =>
    match m.insert k v with
    | none => none
    | some (m', _) => extend m' es

/-- avl.rs:2302-2308 `from_iter`, 2292-2300 `From<[_; N]>`. -/
def fromIter [Ord K] (es : List (K × V)) : Option (AvlMap K V) := extend new es

/-- avl.rs:1243-1255 `iter` and 2240-2255 `into_iter`. -/
def iter (m : AvlMap K V) : Iter K V := iterOf m.len m.root
/-- avl.rs:1534-1613 `range`. -/
def range (m : AvlMap K V) (lb ub : Bnd K) : Iter K V := rangeOf lb ub m.len m.root

/-- avl.rs:1897-1911 `chk`. -/
def chk [Ord K] (m : AvlMap K V) : Bool :=
  match m.root.chk none with
  | none => false
  | some (n, _) => n == m.len

/-- `for e in &m`: everything `iter` yields.  Every yielding call decrements `len`, so
`len + 1` calls are enough. -/
def iterList (m : AvlMap K V) : Option (List (K × V)) := drain (m.len + 1) m.iter

/-- avl.rs:259-268 `eq`; `eqE` is `==` on entries. -/
def eqMap (eqE : K × V → K × V → Bool) (a b : AvlMap K V) : Option Bool :=
  if a.len == b.len then
    match a.iterList, b.iterList with
    | some x, some y => some ((x.zip y).all (fun z => eqE z.1 z.2))
    | _, _ => none
  else some false

/-- avl.rs:272-280 `partial_cmp`: `Iterator::partial_cmp` of the two iterations. -/
def partialCmpMap (cmpE : K × V → K × V → Option Ordering) (a b : AvlMap K V) :
    Option (Option Ordering) :=
  match a.iterList, b.iterList with
  | some x, some y => some (Spec.lexPartialCmp cmpE x y)
  | _, _ => none

/-- avl.rs:282-286 `cmp`: `Iterator::cmp` of the two iterations. -/
def cmpMap (cmpE : K × V → K × V → Ordering) (a b : AvlMap K V) : Option Ordering :=
  match a.iterList, b.iterList with
  | some x, some y => some (Spec.lexCmp cmpE x y)
  | _, _ => none

/-- avl.rs:288-300 `hash`: `len`, then key and value of each entry, fed to a hasher with
state `σ`. -/
def hashMap {σ : Type _} (hLen : σ → Nat → σ) (hK : σ → K → σ) (hV : σ → V → σ) (a : AvlMap K V)
    (s : σ) : σ :=
  a.forEach (fun s k v => hV (hK s k) v) (hLen s a.len)

/-- Representation invariant. -/
structure WF [Ord K] (m : AvlMap K V) : Prop where
  bal : m.root.Bal
  sorted : Sorted m.abs
  len_eq : m.len = m.abs.length

/-! ### Refinement lemmas -/
section
open Std
variable [Ord K] [TransOrd K] {m : AvlMap K V}

theorem wf_new : WF (new : AvlMap K V) := ⟨trivial, List.Pairwise.nil, rfl⟩

theorem insert_spec (h : WF m) (k : K) (v : V) :
    ∃ m', m.insert k v = some (m', (Spec.find (compare k) m.abs).map (·.2)) ∧ WF m' ∧
      m'.abs = Spec.insert k v m.abs := by
  obtain ⟨t', old, tl, e, hB, -, -⟩ := ins_shape k v m.root h.bal
  obtain ⟨h1, h2⟩ := ins_toList h.sorted e
  refine ⟨⟨m.len + (if old.isNone then 1 else 0), t'⟩, ?_, ?_, h1⟩
  · simp only [insert, e]; rw [h2]; rfl
  · refine ⟨hB, ?_, ?_⟩
    · simp only [abs, h1]; exact sorted_insert h.sorted
    · simp only [abs, h1]
      have := length_insert (k := k) (v := v) h.sorted
      simp only [abs] at this
      rw [this, h.len_eq, h2]
      by_cases hf : (Spec.find (compare k) m.root.toList).isSome = true
      · simp only [abs]; obtain ⟨x, hx⟩ := Option.isSome_iff_exists.1 hf; simp [hx]
      · simp only [abs]; simp at hf; simp [hf]

theorem popWith_spec {r : Option (Tree K V × Option (K × V) × Bool)} {len : Nat} {t : Tree K V}
    {kv : Option (K × V)} {sh : Bool} (hr : r = some (t, kv, sh)) (hB : t.Bal)
    (hs : Sorted t.toList) (hlen : len = t.toList.length + (if kv.isSome then 1 else 0)) :
    ∃ m', popWith len r = some (m', kv) ∧ WF m' ∧ m'.abs = t.toList := by
  subst hr
  cases kv with
  | none => exact ⟨⟨len, t⟩, rfl, ⟨hB, hs, by simpa [abs] using hlen⟩, rfl⟩
  | some e =>
    simp at hlen
    refine ⟨⟨len - 1, t⟩, ?_, ⟨hB, hs, by simp [abs]; omega⟩, rfl⟩
    simp [popWith, hlen]

theorem removeEntry_spec (h : WF m) {p : K → Ordering} (hp : IsProbe p) :
    ∃ m', m.removeEntry p = some (m', Spec.find p m.abs) ∧ WF m' ∧
      m'.abs = Spec.erase p m.abs := by
  obtain ⟨t', kv, sh, e, hB, -⟩ := rm_shape p m.root h.bal
  obtain ⟨h1, h2⟩ := rm_toList hp h.sorted e
  have hlen := length_erase hp h.sorted
  obtain ⟨m', e1, e2, e3⟩ := popWith_spec (len := m.len) e hB
    (by rw [h1]; exact sorted_erase h.sorted)
    (by rw [h.len_eq, h1, h2]; exact hlen.symm)
  exact ⟨m', by rw [removeEntry, e1, h2]; rfl, e2, by rw [e3, h1]; rfl⟩

theorem popFirst_spec (h : WF m) :
    ∃ m', m.popFirst = some (m', m.abs.head?) ∧ WF m' ∧ m'.abs = m.abs.tail := by
  obtain ⟨t', kv, sh, e, hB, -⟩ := rmLeftmost_shape m.root h.bal
  obtain ⟨h1, h2⟩ := rmLeftmost_toList e
  obtain ⟨m', e1, e2, e3⟩ := popWith_spec (len := m.len) e hB
    (by rw [h1]; exact h.sorted.sublist (List.tail_sublist _))
    (by rw [h.len_eq, h1, h2]; simp only [abs]; cases m.root.toList <;> simp)
  exact ⟨m', by rw [popFirst, e1, h2]; rfl, e2, by rw [e3, h1]; rfl⟩

theorem popLast_spec (h : WF m) :
    ∃ m', m.popLast = some (m', m.abs.getLast?) ∧ WF m' ∧ m'.abs = m.abs.dropLast := by
  obtain ⟨t', kv, sh, e, hB, -⟩ := rmRightmost_shape m.root h.bal
  obtain ⟨h1, h2⟩ := rmRightmost_toList e
  obtain ⟨m', e1, e2, e3⟩ := popWith_spec (len := m.len) e hB
    (by rw [h1]; exact h.sorted.sublist (List.dropLast_sublist _))
    (by rw [h.len_eq, h1, h2]; simp only [abs]
        cases m.root.toList <;> simp)
  exact ⟨m', by rw [popLast, e1, h2]; rfl, e2, by rw [e3, h1]; rfl⟩

theorem getKeyValue_spec (h : WF m) {p : K → Ordering} (hp : IsProbe p) :
    m.getKeyValue p = Spec.find p m.abs := getKeyValue_toList hp h.sorted

theorem getMut_spec (h : WF m) {p : K → Ordering} (hp : IsProbe p) (g : V → V) :
    WF (m.getMut p g).1 ∧
      (m.getMut p g).1.abs = m.abs.map (fun e => if p e.1 = .eq then (e.1, g e.2) else e) ∧
      (m.getMut p g).2 = (Spec.find p m.abs).isSome := by
  obtain ⟨h1, h2⟩ := getMutWith_toList hp g h.sorted
  have hsh := getMutWith_shape p g m.root
  have hk : ((getMutWith p g m.root).1.toList.map (·.1)) = m.root.toList.map (·.1) := by
    rw [h1, List.map_map]; apply List.map_congr_left
    intro e _; simp only [Function.comp]; split <;> rfl
  refine ⟨⟨hsh.2 h.bal, ?_, ?_⟩, h1, h2⟩
  · exact Sorted.of_keys_sublist h.sorted (by simp only [getMut, abs, hk]; exact List.Sublist.refl _)
  · have := congrArg List.length h1
    simp only [getMut, abs, this, List.length_map]
    exact h.len_eq

/-- A merge of two maps, by lookups. -/
theorem merge_spec {l r : AvlMap K V} (hl : WF l) (hr : WF r) (kl kr : Bool)
    {dec : K × V → K × V → Option (K × V)} (hdec : KeyPreserving dec) :
    ∃ t, merge kl kr dec l.root r.root = some t ∧ WF (⟨t.size, t⟩ : AvlMap K V) ∧
      ∀ q, Spec.find (compare q) t.toList =
        mergeAt kl kr dec (Spec.find (compare q) l.abs) (Spec.find (compare q) r.abs) := by
  obtain ⟨t, e, hB⟩ := merge_shape kl kr dec l.root r.root hl.bal hr.bal
  obtain ⟨h1, h2⟩ := merge_toList hdec hl.sorted hr.sorted e
  exact ⟨t, e, ⟨hB, h1, size_eq t⟩, h2⟩

theorem newUnion_spec {l r : AvlMap K V} (hl : WF l) (hr : WF r) :
    ∃ m', newUnion l r = some m' ∧ WF m' ∧ m'.abs = Spec.union l.abs r.abs := by
  obtain ⟨t, e, w, h⟩ := merge_spec hl hr true true (dec := fun _ r => some r)
    (by intro a b e hc he; simp at he; subst he; exact hc)
  refine ⟨⟨t.size, t⟩, by rw [newUnion, union, e]; rfl, w, ?_⟩
  refine Sorted.ext_find w.sorted (Spec.sorted_union hl.sorted) (fun q => ?_)
  rw [Spec.find_union (isProbe_compare q) hl.sorted hr.sorted]
  refine (h q).trans ?_
  cases Spec.find (compare q) l.abs <;> cases Spec.find (compare q) r.abs <;> simp [mergeAt]

theorem newIntersect_spec {l r : AvlMap K V} (hl : WF l) (hr : WF r) :
    ∃ m', newIntersect l r = some m' ∧ WF m' ∧ m'.abs = Spec.inter l.abs r.abs := by
  obtain ⟨t, e, w, h⟩ := merge_spec hl hr false false (dec := fun l _ => some l)
    (by intro a b e hc he; simp at he; subst he; exact cmp_self _)
  refine ⟨⟨t.size, t⟩, by rw [newIntersect, intersect, e]; rfl, w, ?_⟩
  refine Sorted.ext_find w.sorted (Spec.sorted_inter hl.sorted) (fun q => ?_)
  rw [Spec.find_inter q hl.sorted]
  refine (h q).trans ?_
  cases Spec.find (compare q) l.abs <;> cases Spec.find (compare q) r.abs <;> simp [mergeAt]

theorem newDiff_spec {l r : AvlMap K V} (hl : WF l) (hr : WF r) :
    ∃ m', newDiff l r = some m' ∧ WF m' ∧ m'.abs = Spec.diff l.abs r.abs := by
  obtain ⟨t, e, w, h⟩ := merge_spec hl hr true false (dec := fun _ _ => none)
    (by intro a b e hc he; simp at he)
  refine ⟨⟨t.size, t⟩, by rw [newDiff, diff, e]; rfl, w, ?_⟩
  refine Sorted.ext_find w.sorted (Spec.sorted_diff hl.sorted) (fun q => ?_)
  rw [Spec.find_diff q hl.sorted]
  refine (h q).trans ?_
  cases Spec.find (compare q) l.abs <;> cases Spec.find (compare q) r.abs <;> simp [mergeAt]

theorem newSymDiff_spec {l r : AvlMap K V} (hl : WF l) (hr : WF r) :
    ∃ m', newSymDiff l r = some m' ∧ WF m' ∧ m'.abs = Spec.symDiff l.abs r.abs := by
  obtain ⟨t, e, w, h⟩ := merge_spec hl hr true true (dec := fun _ _ => none)
    (by intro a b e hc he; simp at he)
  refine ⟨⟨t.size, t⟩, by rw [newSymDiff, symDiff, e]; rfl, w, ?_⟩
  refine Sorted.ext_find w.sorted (Spec.sorted_symDiff hl.sorted) (fun q => ?_)
  rw [Spec.find_symDiff q hl.sorted hr.sorted]
  refine (h q).trans ?_
  cases Spec.find (compare q) l.abs <;> cases Spec.find (compare q) r.abs <;> simp [mergeAt]

theorem append_spec {l r : AvlMap K V} (hl : WF l) (hr : WF r) :
    ∃ m', l.append r = some (m', new) ∧ WF m' ∧ m'.abs = Spec.union l.abs r.abs := by
  obtain ⟨m', e, w, a⟩ := newUnion_spec hl hr
  refine ⟨m', ?_, w, a⟩
  unfold newUnion at e
  unfold append
  cases hu : union l.root r.root with
  | none => simp [hu] at e
  | some t => simp [hu] at e ⊢; exact ⟨e, rfl⟩

theorem newJoin_checked {l r : AvlMap K V} (hl : WF l) (hr : WF r) {k : K} {v : V} {m'}
    (h : newJoin true l k v r = some m') :
    (∀ e ∈ l.abs, compare e.1 k = .lt) ∧ (∀ e ∈ r.abs, compare k e.1 = .lt) := by
  unfold newJoin at h
  split at h
  · simp at h
  · next c1 =>
    split at h
    · simp at h
    · next c2 =>
      simp only [Bool.true_and, Bool.not_eq_true', Bool.not_eq_false] at c1 c2
      rw [lastKeyValue, last_toList] at c1
      rw [firstKeyValue, first_toList] at c2
      constructor
      · apply all_lt_of_last hl.sorted
        intro e he
        simp only [abs] at he
        rw [he] at c1; simpa using c1
      · intro e he
        have hs := hr.sorted
        simp only [abs] at he hs
        cases hl' : r.root.toList with
        | nil => rw [hl'] at he; simp at he
        | cons x xs =>
          rw [hl'] at he c2 hs
          simp at c2
          rcases List.mem_cons.1 he with rfl | he
          · exact c2
          · exact cmp_lt_trans c2 ((sorted_cons.1 hs).1 e he)

theorem newJoin_spec (debug : Bool) {l r : AvlMap K V} (hl : WF l) (hr : WF r) {k : K} {v : V}
    (h1 : ∀ e ∈ l.abs, compare e.1 k = .lt) (h2 : ∀ e ∈ r.abs, compare k e.1 = .lt) :
    ∃ m', newJoin debug l k v r = some m' ∧ WF m' ∧ m'.abs = l.abs ++ (k, v) :: r.abs := by
  obtain ⟨t, e, hB, -⟩ := join_shape l.root k v r.root hl.bal hr.bal
  have ht := join_toList e
  have c1 : l.lastKeyValue.all (fun e => compare e.1 k == .lt) = true := by
    rw [lastKeyValue, last_toList]
    cases hg : l.root.toList.getLast? with
    | none => rfl
    | some x => simp [h1 x (List.mem_of_getLast? hg)]
  have c2 : r.firstKeyValue.all (fun e => compare k e.1 == .lt) = true := by
    rw [firstKeyValue, first_toList]
    cases hg : r.root.toList.head? with
    | none => rfl
    | some x => simp [h2 x (List.mem_of_head? hg)]
  refine ⟨⟨l.len + 1 + r.len, t⟩, by simp [newJoin, c1, c2, e], ⟨hB, ?_, ?_⟩, ht⟩
  · simp only [abs, ht]; exact sorted_mid.2 ⟨hl.sorted, hr.sorted, h1, h2⟩
  · simp only [abs, ht, List.length_append, List.length_cons, hl.len_eq, hr.len_eq]; omega

theorem splitOff_spec (h : WF m) {p : K → Ordering} (hp : IsProbe p) :
    ∃ a b, m.splitOff p = some (a, b) ∧ WF a ∧ WF b ∧ a.abs = Spec.below p m.abs ∧
      b.abs = Spec.atLeast p m.abs := by
  obtain ⟨lhs, kv, rhs, e, hB1, hB2⟩ := split_shape p m.root h.bal
  obtain ⟨h1, h2, h3⟩ := split_toList hp h.sorted e
  have hlen := length_decomp hp h.sorted
  have hsz : lhs.size = (Spec.below p m.abs).length := by rw [size_eq, h1]; rfl
  have hge : Spec.atLeast p m.abs = kv.toList ++ rhs.toList := by
    rw [atLeast_eq hp h.sorted, h2, h3]; rfl
  have hle : ¬ m.len < lhs.size := by rw [hsz, h.len_eq, hlen]; omega
  have wfa : WF (⟨lhs.size, lhs⟩ : AvlMap K V) :=
    ⟨hB1, by simp only [abs, h1]; exact h.sorted.filter _, size_eq _⟩
  have hlr : m.len - lhs.size = (kv.toList ++ rhs.toList).length := by
    have : rhs.toList.length = (Spec.above p m.abs).length := by rw [h3]; rfl
    rw [hsz, h.len_eq, hlen, List.length_append, this, show Spec.find p m.abs = kv from h2.symm]
    cases kv <;> simp
    omega
  have hsr : Sorted (kv.toList ++ rhs.toList) := by rw [← hge]; exact h.sorted.filter _
  cases kv with
  | none =>
    refine ⟨⟨lhs.size, lhs⟩, ⟨m.len - lhs.size, rhs⟩, by simp [splitOff, e, hle], wfa,
      ⟨hB2, by simpa [abs] using hsr, by simpa [abs] using hlr⟩, h1, by rw [hge]; rfl⟩
  | some kv =>
    obtain ⟨k, v⟩ := kv
    obtain ⟨t', old, tl, e', hB, -, -⟩ := ins_shape k v rhs hB2
    have hsr' : Sorted rhs.toList := (sorted_append.1 hsr).2.1
    obtain ⟨g1, g2⟩ := ins_toList hsr' e'
    have hins : Spec.insert k v rhs.toList = (k, v) :: rhs.toList := by
      simp only [Option.toList_some, List.singleton_append, sorted_cons] at hsr
      have := insert_ctx (k := k) (v := v) (pre := []) (c := []) (post := rhs.toList) (by simp)
        hsr.1
      simpa [Spec.insert] using this
    refine ⟨⟨lhs.size, lhs⟩, ⟨m.len - lhs.size, t'⟩, by simp [splitOff, e, hle, e'], wfa,
      ⟨hB, ?_, ?_⟩, h1, ?_⟩
    · simp only [abs, g1]; exact sorted_insert hsr'
    · simp only [abs, g1, hins]; simpa using hlr
    · simp only [abs, g1, hins]; rw [show m.root.toList = m.abs from rfl, hge]; rfl

theorem extend_spec (h : WF m) (es : List (K × V)) :
    ∃ m', m.extend es = some m' ∧ WF m' ∧
      m'.abs = es.foldl (fun l e => Spec.insert e.1 e.2 l) m.abs := by
  induction es generalizing m with
  | nil => exact ⟨m, rfl, h, rfl⟩
  | cons e es ih =>
    obtain ⟨k, v⟩ := e
    obtain ⟨m1, e1, h1, a1⟩ := insert_spec h k v
    obtain ⟨m2, e2, h2, a2⟩ := ih h1
    exact ⟨m2, by simp [extend, e1, e2], h2, by rw [a2, a1]; rfl⟩

/-- `retain` with a closure that does not panic. -/
theorem retain_spec {σ : Type _} (h : WF m) (f : σ → K → V → σ × V × Bool) (s : σ) :
    ∃ s' m', m.retain (fun s k v => some (f s k v)) s = .done s' m' ∧ WF m' ∧
      ((m'.abs).map (·.1)).Sublist (m.abs.map (·.1)) ∧
      ∃ order : List (K × V), order.Perm m.abs ∧ s' = (Spec.calls f s order).1 ∧
        m'.abs.Perm (Spec.calls f s order).2 := by
  obtain ⟨s', t', n, e, hB⟩ := retain_shape f s m.root h.bal
  obtain ⟨o, p1, q1, c1, m1, n1⟩ := retain_calls f e
  exact ⟨s', ⟨n, t'⟩, by simp [retain, e], ⟨hB, Sorted.of_keys_sublist h.sorted m1, n1⟩, m1,
    o, p1, q1, c1⟩

theorem forEachMut_spec {σ : Type _} (h : WF m) (f : σ → K → V → σ × V) (s : σ) :
    WF (m.forEachMut f s).2 ∧
      ((m.forEachMut f s).1, (m.forEachMut f s).2.abs) = mapCalls f s m.abs := by
  have e := forEachMut_toList f s m.root
  have hsh := forEachMut_shape f s m.root
  have hk := mapCalls_keys f s m.root.toList
  rw [← e] at hk
  refine ⟨⟨hsh.2 h.bal, ?_, ?_⟩, e⟩
  · exact Sorted.of_keys_sublist h.sorted (by simp only [forEachMut, abs]; rw [hk]; exact List.Sublist.refl _)
  · have := congrArg List.length hk
    simp only [List.length_map] at this
    simp only [forEachMut, abs, this]; exact h.len_eq

theorem iterList_spec (h : WF m) : m.iterList = some m.abs := by
  have hi : items m.iter.work = m.abs := items_iterOf _ _
  rw [iterList, drain_spec, hi]
  · rw [hi]; exact Nat.le_of_eq h.len_eq.symm
  · rw [hi, h.len_eq]; omega

theorem chk_eq_true : m.chk = true ↔ WF m := by
  unfold chk
  cases hc : m.root.chk none with
  | none =>
    constructor
    · simp
    · intro h
      have := (Tree.chk_iff (t := m.root) (g := none) (n := m.abs.length)
        (g' := (m.root.toList.getLast?.map (·.1)).or none)).2
        ⟨h.bal, h.sorted, fun x hx => by simp at hx, rfl, rfl⟩
      rw [hc] at this; simp at this
  | some x =>
    obtain ⟨n, g⟩ := x
    obtain ⟨h1, h2, h3, h4, h5⟩ := Tree.chk_iff.1 hc
    simp only [beq_iff_eq]
    constructor
    · intro hn; exact ⟨h1, h2, by rw [← hn, h4]; rfl⟩
    · intro h; rw [h4, h.len_eq]; rfl

end
end AvlMap
end Verif.Avl
