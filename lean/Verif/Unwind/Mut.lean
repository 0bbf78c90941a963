import Verif.Unwind.Own
import Verif.Unwind.Into
import Verif.Avl.Iter
/-!
# Mutable iteration over an `AvlMap` when `Clone` panics

`for_each_mut`, `iter_mut` (with `values_mut`) and `range_mut` of src/avl.rs.  A `&mut` reference
into the tree is the path to the node it points to; the tree itself is the memory.  The caller
writes to each value it is given, and goes on calling the iterator after a panic of `Clone`.

Simplifications: the caller writes to a value before the next call, not later; references are to
disjoint parts of the tree, so the time of writing does not matter.
-/
set_option linter.unusedVariables false
namespace Verif.Avl
open Verif.Wild Verif.Unwind
universe w
variable {σ : Type w} {K V : Type}

namespace STree

/-- A path from the root, `true` for the right child. -/
abbrev Path := List Bool

/-- The tree that a path leads to. -/
def sub : Path → STree K V → STree K V
  | [], t => t
  | _ :: _, nil => nil
  | d :: p, node _ _ _ _ _ l r => sub p (if d then r else l)

/-- Change the tree that a path leads to. -/
def upd (f : STree K V → STree K V) : Path → STree K V → STree K V
  | [], t => f t
  | _ :: _, nil => nil
  | false :: p, node sh k v lh rh l r => node sh k v lh rh (upd f p l) r
  | true :: p, node sh k v lh rh l r => node sh k v lh rh l (upd f p r)

/-- The effect of a successful `Arc::make_mut`: a shared node is replaced by a copy, which is not
shared, and whose children are. -/
def fresh : STree K V → STree K V
  | nil => nil
  | node sh k v lh rh l r => node false k v lh rh (l.shareIf sh) (r.shareIf sh)

/-- A write through a reference to the value of a node. -/
def poke (g : K → V → V) : STree K V → STree K V
  | nil => nil
  | node sh k v lh rh l r => node sh k (g k v) lh rh l r

/-- `Arc::make_mut` of the link to the node at a path, if there is one; `true`: `Clone` panicked,
which leaves the link as it was. -/
def makeMutC (c : Cl σ K V) (p : Path) (t : STree K V) (s : σ) : Bool × STree K V × σ :=
  match sub p t with
  | nil => (false, t, s)
  | node sh k v _ _ _ _ =>
    match cloneIf c sh [(k, v)] s with
    | (true, s) => (true, t, s)
    | (false, s) => (false, upd fresh p t, s)

/-- `Arc::make_mut` of the links to the two children of the node at `p`, as far as they are wanted,
first that in direction `d`. -/
def openC (c : Cl σ K V) (p : Path) (d : Bool) (b1 b2 : Bool) (t : STree K V) (s : σ) :
    Bool × STree K V × σ :=
  match (if b1 then makeMutC c (p ++ [d]) t s else (false, t, s)) with
  | (true, t, s) => (true, t, s)
  | (false, t, s) => if b2 then makeMutC c (p ++ [!d]) t s else (false, t, s)

/-! ### `for_each_mut` -/

/-- avl.rs:133-149 `Node::for_each_mut` and 1885-1893 `AvlMap::for_each_mut`, with `make_mut` of
the link to the node (141, 147, 1891); `b`: the node above has been copied, and so this one is
shared.  The closure changes its state and the value; `true`: it panics (it may have changed the
value before).  The result: whether there was a panic, the tree, and the states. -/
def forEachC {τ : Type} (c : Cl σ K V) (f : τ → K → V → τ × V × Bool) :
    Bool → STree K V → τ → σ → Bool × STree K V × τ × σ
  | _, nil, a, s => (false, nil, a, s)
  | b, node sh k v lh rh l r, a, s =>
    match cloneIf c (sh || b) [(k, v)] s with
    | (true, s) => (true, node (sh || b) k v lh rh l r, a, s)
    | (false, s) =>
      match forEachC c f (sh || b) l a s with
      | (true, l, a, s) => (true, node false k v lh rh l (r.shareIf (sh || b)), a, s)
      | (false, l, a, s) =>
        match f a k v with
        | (a, v, true) => (true, node false k v lh rh l (r.shareIf (sh || b)), a, s)
        | (a, v, false) =>
          match forEachC c f (sh || b) r a s with
          | (x, r, a, s) => (x, node false k v lh rh l r, a, s)

/-! ### The iterators -/

/-- Keys and heights of the tree, which mutable iteration cannot change. -/
def skel : STree K V → Tree K Unit
  | nil => .nil
  | node _ k _ lh rh l r => .node k () lh rh l.skel r.skel

/-- The tree that a path leads to. -/
def subT : Path → Tree K Unit → Tree K Unit
  | [], t => t
  | _ :: _, .nil => .nil
  | d :: p, .node _ _ _ _ l r => subT p (if d then r else l)

theorem skel_sub : ∀ (p : Path) (t : STree K V), (sub p t).skel = subT p t.skel
  | [], _ => rfl
  | _ :: _, nil => rfl
  | false :: p, node _ _ _ _ _ l r => skel_sub p l
  | true :: p, node _ _ _ _ _ l r => skel_sub p r

theorem skel_upd {f : STree K V → STree K V} (hf : ∀ t, (f t).skel = t.skel) :
    ∀ (p : Path) (t : STree K V), (upd f p t).skel = t.skel
  | [], t => hf t
  | _ :: _, nil => rfl
  | false :: p, node _ _ _ _ _ l r => by simp [upd, skel, skel_upd hf p l]
  | true :: p, node _ _ _ _ _ l r => by simp [upd, skel, skel_upd hf p r]

@[simp] theorem skel_shareIf (b : Bool) (t : STree K V) : (t.shareIf b).skel = t.skel := by
  cases t <;> rfl

theorem skel_fresh (t : STree K V) : (fresh t).skel = t.skel := by
  cases t <;> simp [fresh, skel]

theorem skel_poke (g : K → V → V) (t : STree K V) : (poke g t).skel = t.skel := by
  cases t <;> rfl

theorem skel_makeMutC {c : Cl σ K V} {p : Path} {t t' : STree K V} {s s' : σ} {b : Bool}
    (h : makeMutC c p t s = (b, t', s')) : t'.skel = t.skel := by
  unfold makeMutC at h
  split at h
  · cases h; rfl
  · split at h <;> cases h
    · rfl
    · exact skel_upd skel_fresh p t

theorem skel_openC {c : Cl σ K V} {p : Path} {d b1 b2 : Bool} {t t' : STree K V} {s s' : σ} {b : Bool}
    (h : openC c p d b1 b2 t s = (b, t', s')) : t'.skel = t.skel := by
  unfold openC at h
  have h1 : ∀ {p t t' s s' b b1}, (if b1 = true then makeMutC c p t s else (false, t, s)) = (b, t', s') →
      t'.skel = t.skel := by
    intro p t t' s s' b b1 h
    split at h
    · exact skel_makeMutC h
    · cases h; rfl
  split at h
  · next h0 => cases h; exact h1 h0
  · next h0 => exact (h1 h).trans (h1 h0)

/-- avl.rs:1915-1918 `IterAction` over `IterMutNode` (2046-2062): a reference to a node, or one to
its value. -/
inductive MAct where
  | desc (p : Path)
  | ret (p : Path)
  deriving DecidableEq, Repr

/-- Whether there is no node. -/
def none? : Tree K Unit → Bool
  | .nil => true
  | .node .. => false

/-- Push `Descend` if there is a node (and it is wanted). -/
def pushM (z : Tree K Unit) (b : Bool) (p : Path) (w : List MAct) : List MAct :=
  if b && !none? (subT p z) then .desc p :: w else w

/-- Push `Return` if it is wanted. -/
def pushR (b : Bool) (p : Path) (w : List MAct) : List MAct := if b then .ret p :: w else w

/-- The parts of the node at `p` that are wanted (left, entry, right) on the worklist, seen from the
front or from the back. -/
def parts (z : Tree K Unit) (front : Bool) (p : Path) (x : Bool × Bool × Bool) (w : List MAct) :
    List MAct :=
  if front then
    pushM z x.1 (p ++ [false]) (pushR x.2.1 p (pushM z x.2.2 (p ++ [true]) w))
  else pushM z x.2.2 (p ++ [true]) (pushR x.2.1 p (pushM z x.1 (p ++ [false]) w))

/-- Termination measure. -/
def wsz (z : Tree K Unit) : List MAct → Nat
  | [] => 0
  | .desc p :: w => 3 * (subT p z).size + 1 + wsz z w
  | .ret _ :: w => 1 + wsz z w

theorem subT_nil : ∀ (p : Path), subT p (.nil : Tree K Unit) = .nil
  | [] => rfl
  | _ :: _ => rfl

theorem subT_snoc (d : Bool) : ∀ (p : Path) (z : Tree K Unit), subT (p ++ [d]) z =
    match subT p z with
    | .nil => .nil
    | .node _ _ _ _ l r => if d then r else l
  | [], .nil => rfl
  | [], .node .. => by simp [subT]
  | _ :: _, .nil => by simp [subT]
  | e :: p, .node _ _ _ _ l r => subT_snoc d p (if e then r else l)

theorem wsz_pushM (z : Tree K Unit) (b : Bool) (p : Path) (w) :
    wsz z (pushM z b p w) ≤ 3 * (subT p z).size + (if none? (subT p z) then 0 else 1) + wsz z w := by
  unfold pushM
  cases h : none? (subT p z) <;> cases b <;> simp [wsz] <;> omega

theorem wsz_parts {z : Tree K Unit} {p : Path} {k : K} {u : Unit} {lh rh : Int} {l r : Tree K Unit}
    (hp : subT p z = .node k u lh rh l r) (front : Bool) (x) (w) :
    wsz z (parts z front p x w) < wsz z (.desc p :: w) := by
  have hl : subT (p ++ [false]) z = l := by rw [subT_snoc, hp]; rfl
  have hr : subT (p ++ [true]) z = r := by rw [subT_snoc, hp]; rfl
  have hR : ∀ w, wsz z (pushR x.2.1 p w) ≤ 1 + wsz z w := by
    intro w; unfold pushR; split <;> simp [wsz]
  have hM : ∀ b p w, wsz z (pushM z b p w) ≤ 3 * (subT p z).size + 1 + wsz z w := by
    intro b p w
    refine Nat.le_trans (wsz_pushM z b p w) ?_
    split <;> omega
  unfold parts
  simp only [wsz, hp, Tree.size]
  split
  · have h1 := hM x.1 (p ++ [false]) (pushR x.2.1 p (pushM z x.2.2 (p ++ [true]) w))
    have h2 := hR (pushM z x.2.2 (p ++ [true]) w)
    have h3 := hM x.2.2 (p ++ [true]) w
    rw [hl] at h1; rw [hr] at h3
    omega
  · have h1 := hM x.2.2 (p ++ [true]) (pushR x.2.1 p (pushM z x.1 (p ++ [false]) w))
    have h2 := hR (pushM z x.1 (p ++ [false]) w)
    have h3 := hM x.1 (p ++ [false]) w
    rw [hr] at h1; rw [hl] at h3
    omega

/-- Take apart the nodes at the front (or back) of the worklist until there is an entry.
This is `InnerIter::next` and `next_back` up to the `Return` (avl.rs:1937-1993 with `destruct`,
2053-2061), where all three parts of a node are wanted (`sel`) and the left child is made mutable
first (`d`); and it is the loops of `range_mut`, 1646-1669 with the right child first, and 1672-1695
with the left child first.  The node has been popped when `Clone` panics. -/
def digC (c : Cl σ K V) (front d : Bool) (sel : K → Bool × Bool × Bool) :
    List MAct → STree K V → σ → Bool × List MAct × STree K V × σ
  | [], t, s => (false, [], t, s)
  | .ret p :: w, t, s => (false, .ret p :: w, t, s)
  | .desc p :: w, t, s =>
    match hp : subT p t.skel with
    | .nil => (true, w, t, s) -- a reference to a node always leads to one; no counterpart
    | .node k _ _ _ _ _ =>
      match ho : openC c p d (if d then (sel k).2.2 else (sel k).1)
          (if d then (sel k).1 else (sel k).2.2) t s with
      | (true, t', s') => (true, w, t', s')
      | (false, t', s') => digC c front d sel (parts t.skel front p (sel k) w) t' s'
termination_by w t _ => wsz t.skel w
decreasing_by
  rw [skel_openC ho]
  exact wsz_parts hp front _ w

/-- avl.rs:1929-1932 `InnerIter`, with the map that it borrows. -/
structure MIt (K V : Type) where
  root : STree K V
  work : List MAct
  len : Nat

/-- Everything is wanted. -/
def selAll (_ : K) : Bool × Bool × Bool := (true, true, true)

/-- The entry at a path. -/
def ent (p : Path) (t : STree K V) : Option (K × V) :=
  match sub p t with
  | nil => none
  | node _ k v _ _ _ _ => some (k, v)

/-- avl.rs:1934-1993: one call of `next` or `next_back`, and the caller's write.  `self.len -= 1`
(1943, 1973) panics at zero.  The entry shown is as it was before the write. -/
def MIt.step (c : Cl σ K V) (g : K → V → V) (front : Bool) (it : MIt K V) (s : σ) :
    Option (Ends (MIt K V) (Option (K × V) × MIt K V) × σ) :=
  let back := fun w : List MAct => if front then w else w.reverse
  match digC c front false selAll (back it.work) it.root s with
  | (true, w, t, s) => some (.unwound ⟨t, back w, it.len⟩, s)
  | (false, .ret p :: w, t, s) =>
    if it.len = 0 then none else
      match ent p t with
      | none => none -- a reference to a value always leads to one; no counterpart
      | some e => some (.done (some e, ⟨upd (poke g) p t, back w, it.len - 1⟩), s)
  | (false, _, t, s) => some (.done (none, ⟨t, [], it.len⟩), s)

/-- `range.contains` (1658, 1683) and the conditions for the children (1652, 1663, 1677, 1688). -/
def selB (lb ub : Bnd K) (k : K) : Bool × Bool × Bool :=
  (!lbGe lb k, lb.okLo k && ub.okHi k, !ubLe ub k)

end STree

namespace SMap
open STree

/-- avl.rs:1885-1893 `for_each_mut`: whether there was a panic, the map, and the states. -/
def forEachMutC {τ : Type} (c : Cl σ K V) (f : τ → K → V → τ × V × Bool) (m : SMap K V) (a : τ)
    (s : σ) : Bool × SMap K V × τ × σ :=
  match forEachC c f false m.root a s with
  | (x, t, a, s) => (x, ⟨m.len, t⟩, a, s)

/-- avl.rs:1281-1298 `iter_mut` (1843-1851 `values_mut`): the root is made mutable. -/
def iterMutC (c : Cl σ K V) (m : SMap K V) (s : σ) : Ends (SMap K V) (MIt K V) × σ :=
  match makeMutC c [] m.root s with
  | (true, t, s) => (.unwound ⟨m.len, t⟩, s)
  | (false, t, s) => (.done ⟨t, pushM t.skel true [] [], m.len⟩, s)

/-- avl.rs:1616-1697 `range_mut`. -/
def rangeMutC (c : Cl σ K V) (lb ub : Bnd K) (m : SMap K V) (s : σ) :
    Ends (SMap K V) (MIt K V) × σ :=
  match makeMutC c [] m.root s with
  | (true, t, s) => (.unwound ⟨m.len, t⟩, s)
  | (false, t, s) =>
    match digC c true true (selB lb ub) (pushM t.skel true [] []) t s with
    | (true, _, t, s) => (.unwound ⟨m.len, t⟩, s)
    | (false, w, t, s) =>
      match digC c false false (selB lb ub) w.reverse t s with
      | (true, _, t, s) => (.unwound ⟨m.len, t⟩, s)
      | (false, w, t, s) => (.done ⟨t, w.reverse, m.len⟩, s)

end SMap
end Verif.Avl
