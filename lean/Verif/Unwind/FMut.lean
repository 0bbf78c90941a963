import Verif.Unwind.BMutOwn
import Verif.Fixed.Reach
/-!
# Mutable iteration over a `fixed::BTreeMap` when `Clone` panics

`iter_mut` of src/btree/fixed.rs, with the conventions of `Verif.Unwind.BMut`.
-/
set_option linter.unusedVariables false
namespace Verif.Unwind
open Verif.Wild
universe w
variable {σ : Type w} {K V : Type}

namespace FixedMut
open Verif.Fixed
open Verif.BTree (ANode Sharing)

/-- core.rs:973-980 `NodeIter`, here `NodeIterMut`; compare `Fixed.NI`. -/
structure MI (K V : Type) where
  es : List (K × V)
  ks : List (ANode K V)
  isNext : Bool

/-- The node iterator without the marks. -/
def MI.vw (w : MI K V) : NI K V := ⟨w.es, w.ks.map ANode.forget, w.isNext⟩

/-- core.rs:990-1000 `NodeIter::next`; 1061-1082 `new`, what it makes once the node has been made
mutable (1062). -/
def miOps : NOps (MI K V) (K × V) (ANode K V) where
  next w :=
    if w.isNext then
      match w.es with
      | [] => some (⟨[], w.ks, w.ks.isEmpty⟩, none)
      | e :: es => some (⟨es, w.ks, w.ks.isEmpty⟩, some (.ret e))
    else
      match w.ks with
      | [] => some (⟨w.es, [], true⟩, none)
      | c :: ks => some (⟨w.es, ks, true⟩, some (.desc c))
  make n :=
    if n.elems.isEmpty then none
    else some ⟨n.elems, BTreeMut.mutKids n, (BTreeMut.mutKids n).isEmpty⟩
  cost w := niOps.cost w.vw

section
variable {I E C : Type}

/-- core.rs:1265-1278, the loop of `InnerIter::next` on `NodeIterMut`; `mk` says whether `make_mut`
(1062) of the link to a child panics.  The node above has moved past the child by then (1266). -/
def loopC (o : NOps I E C) (mk : C → σ → Bool × σ) : Nat → List I → Nat → σ →
    Option (Ends (List I × Nat) (Option E × List I × Nat) × σ)
  | 0, _, _, _ => none
  | _ + 1, [], len, s => some (.done (none, [], len), s)
  | f + 1, w :: ws, len, s =>
    match o.next w with
    | none => none
    | some (w', some (.ret e)) =>
      if len = 0 then none else some (.done (some e, w' :: ws, len - 1), s)
    | some (w', some (.desc c)) =>
      match mk c s with
      | (true, s) => some (.unwound (w' :: ws, len), s)
      | (false, s) =>
        match o.make c with
        | none => none
        | some i => loopC o mk f (i :: w' :: ws) len s
    | some (_, none) => loopC o mk f ws len s

/-- core.rs:1263-1281 `InnerIter::next`; core.rs:1285-1303 `next_back`, the same text with the back
of the deque instead of its front. -/
def stepC (o : NOps I E C) (mk : C → σ → Bool × σ) (d : Bool) (it : Inner I) (s : σ) :
    Option (Ends (Inner I) (Option E × Inner I) × σ) :=
  let back := fun w : List I => if d then w else w.reverse
  match loopC o mk ((it.work.map o.cost).sum + 1) (back it.work) it.len s with
  | none => none
  | some (.unwound (w, len), s) => some (.unwound ⟨back w, len⟩, s)
  | some (.done (r, w, len), s) => some (.done (r, ⟨back w, len⟩), s)

end

/-- The mutable iterator, over entries with their slots. -/
abbrev MIter (K V : Type) := Inner (MI K (Nat × V))

/-- fixed.rs:86-96 `iter_mut`, core.rs:1245-1256 `InnerIter::new`. -/
def iterMutC (c : Cl σ K V) (m : FMap K V) (o : Sharing K (Nat × V)) (s : σ) :
    Option (Ends Unit (MIter K V) × σ) :=
  match m.label.root with
  | none => some (.done ⟨[], m.len⟩, s)
  | some n =>
    match BTreeMut.mkC (BTreeMut.unl c) (o.annot n) s with
    | (true, s) => some (.unwound (), s)
    | (false, s) => (miOps.make (o.annot n)).map fun i => (.done ⟨[i], m.len⟩, s)

/-- The calls on the iterator. -/
def step (c : Cl σ K V) : Bool → MIter K V → σ →
    Option (Ends (MIter K V) (Option (K × (Nat × V)) × MIter K V) × σ) :=
  stepC miOps (BTreeMut.mkC (BTreeMut.unl c))

end FixedMut
end Verif.Unwind
