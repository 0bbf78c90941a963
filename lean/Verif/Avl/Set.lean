import Verif.Avl.Reach
import Verif.Lib.SetOps
/-!
# Model of `AvlSet` (src/avl/avl_set.rs)

`none` = panic, as for the map.  Elements looked up by a borrowed form are given by a probe.
-/
set_option linter.unusedSectionVars false
namespace Verif.Avl
open Std Tree Lib

/-- avl_set.rs:20-22 `AvlSet`. -/
structure AvlSet (T : Type _) where
  map : AvlMap T Unit
  deriving DecidableEq, Repr

namespace AvlSet
variable {T : Type}

/-- The elements in order (abstraction function; `iter` yields these). -/
def elems (s : AvlSet T) : List T := s.map.abs.map (·.1)

/-- avl_set.rs:214-216 `new`. -/
def new : AvlSet T := ⟨.new⟩
/-- avl_set.rs:34-36 `clear`. -/
def clear (s : AvlSet T) : AvlSet T := ⟨s.map.clear⟩
/-- avl_set.rs:97-99 `is_empty`. -/
def isEmpty (s : AvlSet T) : Bool := s.map.isEmpty
/-- avl_set.rs:209-211 `len`. -/
def len (s : AvlSet T) : Nat := s.map.len
/-- avl_set.rs:26-31 `append`. -/
def append [Ord T] (a b : AvlSet T) : Option (AvlSet T × AvlSet T) :=
  (a.map.append b.map).map (fun x => (⟨x.1⟩, ⟨x.2⟩))
/-- avl_set.rs:39-45 `contains`. -/
def contains (s : AvlSet T) (p : T → Ordering) : Bool := s.map.containsKey p
/-- avl_set.rs:63-69 `get`. -/
def get (s : AvlSet T) (p : T → Ordering) : Option T := (s.map.getKeyValue p).map (·.1)
/-- avl_set.rs:58-60 `first`. -/
def first (s : AvlSet T) : Option T := s.map.firstKeyValue.map (·.1)
/-- avl_set.rs:204-206 `last`. -/
def last (s : AvlSet T) : Option T := s.map.lastKeyValue.map (·.1)
/-- avl_set.rs:73-78 `insert`. -/
def insert [Ord T] (s : AvlSet T) (x : T) : Option (AvlSet T × Bool) :=
  (s.map.insert x ()).map (fun y => (⟨y.1⟩, y.2.isNone))
/-- avl_set.rs:275-280 `pop_first`. -/
def popFirst (s : AvlSet T) : Option (AvlSet T × Option T) :=
  s.map.popFirst.map (fun y => (⟨y.1⟩, y.2.map (·.1)))
/-- avl_set.rs:283-288 `pop_last`. -/
def popLast (s : AvlSet T) : Option (AvlSet T × Option T) :=
  s.map.popLast.map (fun y => (⟨y.1⟩, y.2.map (·.1)))
/-- avl_set.rs:305-311 `remove`. -/
def remove (s : AvlSet T) (p : T → Ordering) : Option (AvlSet T × Bool) :=
  (s.map.remove p).map (fun y => (⟨y.1⟩, y.2.isSome))
/-- avl_set.rs:393-404 `take`: `rm` on the root, then `len -= 1` if something was removed. -/
def take (s : AvlSet T) (p : T → Ordering) : Option (AvlSet T × Option T) :=
  match rm p s.map.root with
  | none => none
  | some (t, some (k, _), _) => if s.map.len = 0 then none else some (⟨⟨s.map.len - 1, t⟩⟩, some k)
  | some (t, none, _) => some (⟨⟨s.map.len, t⟩⟩, none)
/-- avl_set.rs:314-322 `replace`. -/
def replace [Ord T] (s : AvlSet T) (x : T) : Option (AvlSet T × Option T) :=
  match s.take (compare x) with
  | none => none
  | some (s', ret) => (s'.insert x).map (fun y => (y.1, ret))
/-- avl_set.rs:363-371 `split_off`. -/
def splitOff [Ord T] (s : AvlSet T) (p : T → Ordering) : Option (AvlSet T × AvlSet T) :=
  (s.map.splitOff p).map (fun x => (⟨x.1⟩, ⟨x.2⟩))

/-- The common tail of avl_set.rs:223-229, 237-243, 251-257, 265-271. -/
def ofRoot (r : Option (Tree T Unit)) : Option (AvlSet T) := r.map (fun t => ⟨⟨t.size, t⟩⟩)
/-- avl_set.rs:219-230 `new_diff`, and 593-599 `Sub`. -/
def newDiff [Ord T] (a b : AvlSet T) : Option (AvlSet T) := ofRoot (diff a.map.root b.map.root)
/-- avl_set.rs:233-244 `new_intersection`, and 478-484 `BitAnd`. -/
def newIntersection [Ord T] (a b : AvlSet T) : Option (AvlSet T) :=
  ofRoot (intersect a.map.root b.map.root)
/-- avl_set.rs:247-258 `new_union`, and 486-492 `BitOr`. -/
def newUnion [Ord T] (a b : AvlSet T) : Option (AvlSet T) := ofRoot (union a.map.root b.map.root)
/-- avl_set.rs:261-272 `new_sym_diff`, and 494-500 `BitXor`. -/
def newSymDiff [Ord T] (a b : AvlSet T) : Option (AvlSet T) :=
  ofRoot (symDiff a.map.root b.map.root)

/-- avl_set.rs:516-530 `extend` (both impls). -/
def extend [Ord T] (s : AvlSet T) : List T → Option (AvlSet T)
  | [] => some s
  | x :: xs =>
    match s.insert x with
    | none => none
    | some (s', _) => extend s' xs
/-- avl_set.rs:538-544 `from_iter`, 532-536 `From<[T; N]>`. -/
def fromIter [Ord T] (xs : List T) : Option (AvlSet T) := extend new xs

/-- avl_set.rs:197-201, 445-451 `Iter::next`, and 470-476 `IntoIter::next`. -/
def iterNext (it : Iter T Unit) : Option (Option T × Iter T Unit) :=
  (it.step true).map (fun x => (x.1.map (·.1), x.2))

/-- avl_set.rs:48-53, 81-86, 374-379, 409-411 with 453-456: the iterator of a lazy set
operation with flags `P` (`0b100` difference, `0b010` intersection, `0b111` union, `0b101`
symmetric difference). -/
def setOp (a b : AvlSet T) : MergeIter (Iter T Unit) T := .new a.map.iter b.map.iter

/-- The first `n` calls of `next` on such an iterator. -/
def setOpRun [Ord T] (P : Nat) (a b : AvlSet T) (n : Nat) : Option (List (Option T)) :=
  Lib.setOpRun iterNext P (a.len + b.len + 1) n (setOp a b)

/-- avl_set.rs:48-53 `difference` with 453: the first `n` results of `next`. -/
def difference [Ord T] (a b : AvlSet T) (n : Nat) : Option (List (Option T)) := setOpRun 0b100 a b n
/-- avl_set.rs:81-86 `intersection` with 454: the first `n` results of `next`. -/
def intersection [Ord T] (a b : AvlSet T) (n : Nat) : Option (List (Option T)) := setOpRun 0b010 a b n
/-- avl_set.rs:409-411 `union` with 455: the first `n` results of `next`. -/
def union [Ord T] (a b : AvlSet T) (n : Nat) : Option (List (Option T)) := setOpRun 0b111 a b n
/-- avl_set.rs:374-379 `symmetric_difference` with 456: the first `n` results of `next`. -/
def symmetricDifference [Ord T] (a b : AvlSet T) (n : Nat) : Option (List (Option T)) := setOpRun 0b101 a b n

/-- avl_set.rs:89-94 `is_disjoint`. -/
def isDisjoint [Ord T] (a b : AvlSet T) : Option Bool :=
  (setOpNext iterNext 2 (a.len + b.len + 1) (setOp a b)).map (fun x => x.1.isNone)

/-- avl_set.rs:330-352 `dfs` of `retain`; `make_mut` followed by `try_unwrap` always succeeds.
`none` = the closure (or an insertion) panics. -/
def dfs [Ord T] {σ : Type _} (f : σ → T → Option (σ × Bool)) :
    Tree T Unit → σ → AvlMap T Unit → Option (σ × AvlMap T Unit)
  | .nil, s, acc => some (s, acc)
  | .node k _ _ _ l r, s, acc =>
    match dfs f l s acc with
    | none => none
    | some (s1, acc1) =>
      match f s1 k with
      | none => none
      | some (s2, true) =>
        match acc1.insert k () with
        | none => none
        | some (acc2, _) => dfs f r s2 acc2
      | some (s2, false) => dfs f r s2 acc1

/-- avl_set.rs:325-360 `retain`.  The root is taken out first (354) and `self.map` is written
at the end (359), so a panic of the closure leaves an empty root and the old `len`. -/
def retain [Ord T] {σ : Type _} (s : AvlSet T) (f : σ → T → Option (σ × Bool)) (st : σ) :
    AvlMap.RetainEnd σ (AvlSet T) :=
  match s.map.root with
  | .nil => .done st s
  | r =>
    match dfs f r st .new with
    | none => .panicked ⟨⟨s.map.len, .nil⟩⟩
    | some (st', acc) => .done st' ⟨acc⟩

/-- avl_set.rs:546-553 `hash`: `len`, then each element. -/
def hashSet {σ : Type _} (hLen : σ → Nat → σ) (hT : σ → T → σ) (a : AvlSet T) (s : σ) : Option σ :=
  a.map.iterList.map (fun l => l.foldl (fun s e => hT s e.1) (hLen s a.map.len))
/-- avl_set.rs:581-585 `eq`. -/
def eqSet (eqT : T → T → Bool) (a b : AvlSet T) : Option Bool :=
  AvlMap.eqMap (fun x y => eqT x.1 y.1) a.map b.map
/-- avl_set.rs:575-579 `cmp`. -/
def cmpSet (cmpT : T → T → Ordering) (a b : AvlSet T) : Option Ordering :=
  AvlMap.cmpMap (fun x y => cmpT x.1 y.1) a.map b.map
/-- avl_set.rs:587-591 `partial_cmp`. -/
def partialCmpSet (cmpT : T → T → Option Ordering) (a b : AvlSet T) : Option (Option Ordering) :=
  AvlMap.partialCmpMap (fun x y => cmpT x.1 y.1) a.map b.map

/-! ### `is_subset` -/

/-- The flag pushed with a node: `rhs.left.is_none()` (150, 159, 174, 185). -/
def noLeft : Tree T Unit → Bool
  | .node _ _ _ _ .nil _ => true
  | _ => false

/-- `if let Some(rhs_right) = rhs.right { w.push((rhs_right, ..)) }` (158-160, 173-175). -/
def pushRt (r : Tree T Unit) (w : List (Tree T Unit × Bool)) : List (Tree T Unit × Bool) :=
  match r with
  | .nil => w
  | r => (r, noLeft r) :: w

/-- How the search loop ends: `return false` (145, 180), found (157-160), or the shortcut
(134-137). -/
inductive Seek (W : Type _) where
  | fail
  | found (w : W)
  | same (w : W)

/-- avl_set.rs:132-178, the search for `lhs.key`.  `w` is the stack, its last element first.
`Arc::ptr_eq` is an oracle, asked for the `n`-th time with the `n`-th answer; the loop runs at
most `fuel` times (proved to be enough); `none` = panic. -/
def seek [Ord T] (ptrEq : Nat → Tree T Unit → Tree T Unit → Bool) (lhs : Tree T Unit) (key : T) :
    Nat → Nat → List (Tree T Unit × Bool) → Option (Nat × Seek (List (Tree T Unit × Bool)))
  | 0, _, _ => none
  | _ + 1, n, [] => some (n, .fail)
  | fuel + 1, n, (rhs, done) :: w =>
    if ptrEq n lhs rhs then some (n + 1, .same w)
    else
      match rhs with
      | .nil => none -- there are no empty nodes on the stack
      | .node k v lh rh l r =>
        match compare key k with
        | .lt =>
          if done then some (n + 1, .fail)
          else
            match l with
            | .nil => none -- unwrap
            | l => seek ptrEq lhs key fuel (n + 1) ((l, noLeft l) :: (.node k v lh rh l r, true) :: w)
        | .eq => some (n + 1, .found (pushRt r w))
        | .gt => seek ptrEq lhs key fuel (n + 1) (pushRt r w)

/-- avl_set.rs:112-181 `has_all`, with the oracle's counter and the stack as state. -/
def hasAll [Ord T] (ptrEq : Nat → Tree T Unit → Tree T Unit → Bool) (fuel : Nat) :
    Tree T Unit → Nat → List (Tree T Unit × Bool) →
    Option (Bool × Nat × List (Tree T Unit × Bool))
  | .nil, n, w => some (true, n, w) -- `if let Some(..) = lhs.left/right`
  | .node k v lh rh l r, n, w =>
    match hasAll ptrEq fuel l n w with
    | none => none
    | some (false, n1, w1) => some (false, n1, w1)
    | some (true, n1, w1) =>
      match seek ptrEq (.node k v lh rh l r) k fuel n1 w1 with
      | none => none
      | some (n2, .fail) => some (false, n2, w1)
      | some (n2, .same w2) => some (true, n2, w2)
      | some (n2, .found w2) => hasAll ptrEq fuel r n2 w2

/-- avl_set.rs:102-186 `is_subset`. -/
def isSubset [Ord T] (ptrEq : Nat → Tree T Unit → Tree T Unit → Bool) (a b : AvlSet T) :
    Option Bool :=
  if a.isEmpty then some true
  else if b.len < a.len then some false
  else
    match a.map.root, b.map.root with
    | .nil, _ => none
    | _, .nil => none
    | l, r => (hasAll ptrEq (2 * r.size + 1) l 0 [(r, noLeft r)]).map (·.1)

/-- avl_set.rs:189-194 `is_superset`. -/
def isSuperset [Ord T] (ptrEq : Nat → Tree T Unit → Tree T Unit → Bool) (a b : AvlSet T) :
    Option Bool := isSubset ptrEq b a

end AvlSet

/-- Reachable `AvlSet`s: those produced by some history of public operations. -/
inductive SetReachable {T : Type} [Ord T] : AvlSet T → Prop
  | new : SetReachable .new
  | clear {s} : SetReachable s → SetReachable s.clear
  | insert {s s' x b} : SetReachable s → s.insert x = some (s', b) → SetReachable s'
  | remove {s s' p b} : SetReachable s → IsProbe p → s.remove p = some (s', b) → SetReachable s'
  | take {s s' p o} : SetReachable s → IsProbe p → s.take p = some (s', o) → SetReachable s'
  | replace {s s' x o} : SetReachable s → s.replace x = some (s', o) → SetReachable s'
  | popFirst {s s' o} : SetReachable s → s.popFirst = some (s', o) → SetReachable s'
  | popLast {s s' o} : SetReachable s → s.popLast = some (s', o) → SetReachable s'
  | appendL {a b a' b'} : SetReachable a → SetReachable b → a.append b = some (a', b') →
      SetReachable a'
  | appendR {a b a' b'} : SetReachable a → SetReachable b → a.append b = some (a', b') →
      SetReachable b'
  | splitL {s p a b} : SetReachable s → IsProbe p → s.splitOff p = some (a, b) → SetReachable a
  | splitR {s p a b} : SetReachable s → IsProbe p → s.splitOff p = some (a, b) → SetReachable b
  | union {a b s} : SetReachable a → SetReachable b → a.newUnion b = some s → SetReachable s
  | inter {a b s} : SetReachable a → SetReachable b → a.newIntersection b = some s → SetReachable s
  | diff {a b s} : SetReachable a → SetReachable b → a.newDiff b = some s → SetReachable s
  | symDiff {a b s} : SetReachable a → SetReachable b → a.newSymDiff b = some s → SetReachable s
  | retain {s s' : AvlSet T} {σ : Type} {f : σ → T → Option (σ × Bool)} {st st'} :
      SetReachable s → s.retain f st = .done st' s' → SetReachable s'
  | extend {s s' xs} : SetReachable s → s.extend xs = some s' → SetReachable s'
  /-- `Deserialize` is derived (avl_set.rs:15-19): a struct with the field `map` -/
  | deserialize {debug u hint es err m} : (∀ n, hint = some n → n < u) →
      deserialize debug u hint es err = some (.ok m) → SetReachable ⟨m⟩

namespace AvlSet
variable {T : Type} [Ord T] [TransOrd T]

theorem take_eq (s : AvlSet T) (p : T → Ordering) :
    s.take p = (s.map.removeEntry p).map (fun y => (⟨y.1⟩, y.2.map (·.1))) := by
  unfold take AvlMap.removeEntry AvlMap.popWith
  cases h : rm p s.map.root with
  | none => rfl
  | some x =>
    obtain ⟨t, kv, sh⟩ := x
    cases kv with
    | none => rfl
    | some e => dsimp only; split <;> rfl

theorem newDiff_eq (a b : AvlSet T) : a.newDiff b = (AvlMap.newDiff a.map b.map).map mk := by
  simp only [newDiff, ofRoot, AvlMap.newDiff]; cases diff a.map.root b.map.root <;> rfl
theorem newIntersection_eq (a b : AvlSet T) :
    a.newIntersection b = (AvlMap.newIntersect a.map b.map).map mk := by
  simp only [newIntersection, ofRoot, AvlMap.newIntersect]
  cases intersect a.map.root b.map.root <;> rfl
theorem newUnion_eq (a b : AvlSet T) : a.newUnion b = (AvlMap.newUnion a.map b.map).map mk := by
  simp only [newUnion, ofRoot, AvlMap.newUnion]; cases Tree.union a.map.root b.map.root <;> rfl
theorem newSymDiff_eq (a b : AvlSet T) :
    a.newSymDiff b = (AvlMap.newSymDiff a.map b.map).map mk := by
  simp only [newSymDiff, ofRoot, AvlMap.newSymDiff]; cases symDiff a.map.root b.map.root <;> rfl

theorem extend_eq (xs : List T) : ∀ s : AvlSet T,
    s.extend xs = (s.map.extend (xs.map (fun x => (x, ())))).map mk := by
  induction xs with
  | nil => intro s; rfl
  | cons x xs ih =>
    intro s
    simp only [extend, insert, List.map_cons, AvlMap.extend]
    cases s.map.insert x () with
    | none => rfl
    | some y => exact ih _

/-- Visit the elements in order with the closure: `none` if it panics. -/
def visit {σ : Type _} (f : σ → T → Option (σ × Bool)) : σ → List T → Option (σ × List T)
  | s, [] => some (s, [])
  | s, x :: xs =>
    match f s x with
    | none => none
    | some (s1, b) => (visit f s1 xs).map (fun y => (y.1, if b then x :: y.2 else y.2))

theorem visit_append {σ : Type _} (f : σ → T → Option (σ × Bool)) (xs ys : List T) : ∀ s,
    visit f s (xs ++ ys) = (visit f s xs).bind (fun y => (visit f y.1 ys).map
      (fun z => (z.1, y.2 ++ z.2))) := by
  induction xs with
  | nil => intro s; simp only [List.nil_append, visit, Option.bind_some]; cases visit f s ys <;> simp
  | cons x xs ih =>
    intro s
    simp only [List.cons_append, visit]
    cases f s x with
    | none => rfl
    | some y =>
      obtain ⟨s1, b⟩ := y
      dsimp only
      rw [ih]
      cases visit f s1 xs with
      | none => rfl
      | some z =>
        simp only [Option.bind_some, Option.map_some]
        cases visit f z.1 ys with
        | none => rfl
        | some u => cases b <;> simp

theorem dfs_spec {σ : Type _} (f : σ → T → Option (σ × Bool)) : ∀ (t : Tree T Unit) (s : σ)
    (acc : AvlMap T Unit), acc.WF →
    match visit f s (t.toList.map (·.1)) with
    | none => dfs f t s acc = none
    | some (s', kept) => ∃ acc', dfs f t s acc = some (s', acc') ∧ acc'.WF ∧
        acc.extend (kept.map (fun x => (x, ()))) = some acc' := by
  intro t
  induction t with
  | nil => intro s acc hw; exact ⟨acc, rfl, hw, rfl⟩
  | node k v lh rh l r ihl ihr =>
    intro s acc hw
    have hl := ihl s acc hw
    simp only [toList, List.map_append, List.map_cons]
    rw [visit_append]
    simp only [dfs]
    cases h1 : visit f s (l.toList.map (·.1)) with
    | none => rw [h1] at hl; simp only at hl; simp [hl]
    | some y =>
      obtain ⟨s1, kept1⟩ := y
      rw [h1] at hl
      obtain ⟨acc1, e1, w1, x1⟩ := hl
      simp only [e1, Option.bind_some, visit]
      cases h2 : f s1 k with
      | none => simp
      | some z =>
        obtain ⟨s2, b⟩ := z
        have ext_app : ∀ (a b : List (T × Unit)) (m m' : AvlMap T Unit), m.extend a = some m' →
            m.extend (a ++ b) = m'.extend b := by
          intro a
          induction a with
          | nil => intro b m m' h; simp [AvlMap.extend] at h; subst h; rfl
          | cons e es ih =>
            intro b m m' h
            simp only [AvlMap.extend, List.cons_append] at h ⊢
            cases hi : m.insert e.1 e.2 with
            | none => simp [hi] at h
            | some q => simp only [hi] at h ⊢; exact ih b _ _ h
        cases b with
        | true =>
          obtain ⟨acc2, e2, w2, -⟩ := AvlMap.insert_spec w1 k ()
          simp only [e2]
          have hr := ihr s2 acc2 w2
          cases h3 : visit f s2 (r.toList.map (·.1)) with
          | none => rw [h3] at hr; simpa using hr
          | some u =>
            obtain ⟨s3, kept3⟩ := u
            rw [h3] at hr
            obtain ⟨acc3, e3, w3, x3⟩ := hr
            refine ⟨acc3, by simpa using e3, w3, ?_⟩
            simp only [if_true, List.map_append, List.map_cons]
            rw [ext_app _ _ _ _ x1]
            simp only [AvlMap.extend, e2]
            exact x3
        | false =>
          have hr := ihr s2 acc1 w1
          dsimp only
          cases h3 : visit f s2 (r.toList.map (·.1)) with
          | none => rw [h3] at hr; simpa using hr
          | some u =>
            obtain ⟨s3, kept3⟩ := u
            rw [h3] at hr
            obtain ⟨acc3, e3, w3, x3⟩ := hr
            refine ⟨acc3, by simpa using e3, w3, ?_⟩
            simp only [Bool.false_eq_true, if_false, List.map_append]
            rw [ext_app _ _ _ _ x1]
            exact x3

theorem retain_spec {σ : Type _} (f : σ → T → Option (σ × Bool)) (s : AvlSet T) (st : σ) :
    match visit f st s.elems with
    | none => s.retain f st = .panicked ⟨⟨s.map.len, .nil⟩⟩
    | some (st', kept) => s.map.root = .nil ∧ s.retain f st = .done st' s ∧ kept = [] ∨
        ∃ acc, s.retain f st = .done st' ⟨acc⟩ ∧
          AvlMap.fromIter (kept.map (fun x => (x, ()))) = some acc := by
  unfold elems AvlMap.abs
  have h := dfs_spec f s.map.root st .new AvlMap.wf_new
  unfold retain
  cases hr : s.map.root with
  | nil => exact Or.inl ⟨rfl, rfl, rfl⟩
  | node k v lh rh l r =>
    rw [hr] at h
    dsimp only at *
    cases hv : visit f st ((Tree.node k v lh rh l r).toList.map (·.1)) with
    | none => rw [hv] at h; simp only at h; simp [h]
    | some y =>
      rw [hv] at h
      obtain ⟨acc, e, -, x⟩ := h
      exact Or.inr ⟨acc, by rw [e], x⟩

end AvlSet

/-- A reachable set wraps a reachable map. -/
theorem SetReachable.map {T : Type} [Ord T] [TransOrd T] {s : AvlSet T} (h : SetReachable s) :
    Reachable s.map := by
  induction h with
  | new => exact .new
  | clear _ ih => exact .clear ih
  | insert _ e ih =>
    simp only [AvlSet.insert, Option.map_eq_some_iff] at e
    obtain ⟨y, e, h⟩ := e
    simp only [Prod.mk.injEq] at h
    rw [← h.1]; exact .insert ih e
  | remove _ hp e ih =>
    simp only [AvlSet.remove, Option.map_eq_some_iff] at e
    obtain ⟨y, e, h⟩ := e
    simp only [Prod.mk.injEq] at h
    rw [← h.1]; exact .remove ih hp e
  | take _ hp e ih =>
    simp only [AvlSet.take_eq, Option.map_eq_some_iff] at e
    obtain ⟨y, e, h⟩ := e
    simp only [Prod.mk.injEq] at h
    rw [← h.1]; exact .removeEntry ih hp e
  | @replace s s' x o _ e ih =>
    unfold AvlSet.replace at e
    split at e
    · simp at e
    · rename_i s1 ret he
      simp only [AvlSet.take_eq, Option.map_eq_some_iff] at he
      obtain ⟨y, he, h⟩ := he
      simp only [Prod.mk.injEq] at h
      simp only [AvlSet.insert, Option.map_map, Option.map_eq_some_iff] at e
      obtain ⟨z, e, h2⟩ := e
      simp only [Function.comp, Prod.mk.injEq] at h2
      rw [← h2.1]
      refine .insert (m := s1.map) ?_ e
      rw [← h.1]; exact .removeEntry ih (isProbe_compare x) he
  | popFirst _ e ih =>
    simp only [AvlSet.popFirst, Option.map_eq_some_iff] at e
    obtain ⟨y, e, h⟩ := e
    simp only [Prod.mk.injEq] at h
    rw [← h.1]; exact .popFirst ih e
  | popLast _ e ih =>
    simp only [AvlSet.popLast, Option.map_eq_some_iff] at e
    obtain ⟨y, e, h⟩ := e
    simp only [Prod.mk.injEq] at h
    rw [← h.1]; exact .popLast ih e
  | appendL _ _ e iha ihb =>
    simp only [AvlSet.append, Option.map_eq_some_iff] at e
    obtain ⟨y, e, h⟩ := e
    simp only [Prod.mk.injEq] at h
    rw [← h.1]; exact .appendL iha ihb e
  | appendR _ _ e iha ihb =>
    simp only [AvlSet.append, Option.map_eq_some_iff] at e
    obtain ⟨y, e, h⟩ := e
    simp only [Prod.mk.injEq] at h
    rw [← h.2]; exact .appendR iha ihb e
  | splitL _ hp e ih =>
    simp only [AvlSet.splitOff, Option.map_eq_some_iff] at e
    obtain ⟨y, e, h⟩ := e
    simp only [Prod.mk.injEq] at h
    rw [← h.1]; exact .splitL ih hp e
  | splitR _ hp e ih =>
    simp only [AvlSet.splitOff, Option.map_eq_some_iff] at e
    obtain ⟨y, e, h⟩ := e
    simp only [Prod.mk.injEq] at h
    rw [← h.2]; exact .splitR ih hp e
  | union _ _ e iha ihb =>
    simp only [AvlSet.newUnion_eq, Option.map_eq_some_iff] at e
    obtain ⟨y, e, rfl⟩ := e
    exact .union iha ihb e
  | inter _ _ e iha ihb =>
    simp only [AvlSet.newIntersection_eq, Option.map_eq_some_iff] at e
    obtain ⟨y, e, rfl⟩ := e
    exact .intersect iha ihb e
  | diff _ _ e iha ihb =>
    simp only [AvlSet.newDiff_eq, Option.map_eq_some_iff] at e
    obtain ⟨y, e, rfl⟩ := e
    exact .diff iha ihb e
  | symDiff _ _ e iha ihb =>
    simp only [AvlSet.newSymDiff_eq, Option.map_eq_some_iff] at e
    obtain ⟨y, e, rfl⟩ := e
    exact .symDiff iha ihb e
  | @retain s s' σ f st st' _ e ih =>
    have h := AvlSet.retain_spec f s st
    split at h
    · rw [h] at e; simp at e
    · rcases h with ⟨_, h, _⟩ | ⟨acc, h, hx⟩
      · rw [h] at e; simp only [AvlMap.RetainEnd.done.injEq] at e; rw [← e.2]; exact ih
      · rw [h] at e; simp only [AvlMap.RetainEnd.done.injEq] at e
        rw [← e.2]; exact .extend .new hx
  | extend _ e ih =>
    simp only [AvlSet.extend_eq, Option.map_eq_some_iff] at e
    obtain ⟨y, e, rfl⟩ := e
    exact .extend ih e
  | deserialize hh e => exact .deserialize hh e

end Verif.Avl
