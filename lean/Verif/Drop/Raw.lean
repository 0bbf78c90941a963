import Verif.Fixed.Iter
/-!
# The raw slots of the fixed-layout B-tree when a destructor panics (src/btree/core.rs)

A slot is `MaybeUninit`: moving its contents out or destroying them leaves the bits in place, and
nothing in the program stops them from being used again.  So here a slot never becomes empty;
instead, everything that is given away or destroyed is written to a ledger.

Everything in a slot (a key, a value, a reference to a child) has an identity `α`.  `Drop` of keys
and values is an arbitrary computation on a state that may panic whenever it likes.  A panic during
unwinding aborts the process.

Simplifications: the destructor of a key or value counts as one event whether it panics or not (Rust
goes on to destroy its fields); whether a reference to a node is the last one is fixed beforehand,
by the mark `own`; memory of nodes is not modelled.
-/
set_option linter.unusedVariables false
namespace Verif.Fixed.Raw
universe w
variable {σ : Type w} {α : Type}

/-- `Drop::drop` of a key or value: `true` is a panic. -/
abbrev Dr (σ : Type w) (α : Type) := α → σ → Bool × σ

/-- How a piece of code ends. -/
inductive How where
  | fine
  | panic
  | abort
  deriving DecidableEq, Repr

/-- How it ends, what it destroys, and the state of `Drop` thereafter. -/
abbrev Out (σ : Type w) (α : Type) := How × List α × σ

/-- An `Arc` of a node (core.rs:285-288) in some slot: `id` is the `Arc` itself, `own` tells that
it is the last one.  The slots of the node below `len` hold keys and values, and children. -/
inductive Ref (α : Type) where
  | mk (id : α) (own : Bool) (es : List (α × α)) (ks : List (Ref α))

namespace Ref
def id : Ref α → α | mk i _ _ _ => i
def own : Ref α → Bool | mk _ o _ _ => o
def es : Ref α → List (α × α) | mk _ _ es _ => es
def ks : Ref α → List (Ref α) | mk _ _ _ ks => ks
end Ref

/-- A panic that leaves a destructor; `u`: the thread is unwinding already. -/
def bad (u : Bool) : How := if u then .abort else .panic

/-- What is destroyed, put first. -/
def pre (l : List α) (r : Out σ α) : Out σ α := (r.1, l ++ r.2.1, r.2.2)

/-- Drop glue: the next field is dropped even if the first one panicked. -/
def andField (u : Bool) (r : Out σ α) (f : Bool → σ → Out σ α) : Out σ α :=
  match r with
  | (.fine, l, s) => pre l (f u s)
  | (.abort, l, s) => (.abort, l, s)
  | (.panic, l, s) =>
    match f true s with
    | (.fine, l', s) => (.panic, l ++ l', s)
    | (_, l', s) => (.abort, l ++ l', s)

/-- The next round of a loop, which a panic leaves. -/
def andLoop (r : Out σ α) (f : σ → Out σ α) : Out σ α :=
  match r with
  | (.fine, l, s) => pre l (f s)
  | x => x

/-- core.rs:89-97 `clear`, 1221-1226: the key and the value of one slot after the other. -/
def dropElems (d : Dr σ α) (u : Bool) : List (α × α) → σ → Out σ α
  | [], s => (.fine, [], s)
  | (k, v) :: es, s =>
    match d k s with
    | (true, s) => (bad u, [k], s)
    | (false, s) =>
      match d v s with
      | (true, s) => (bad u, [k, v], s)
      | (false, s) => pre [k, v] (dropElems d u es s)

mutual
/-- Drop of an `Arc<Node>`: if it is the last one, the node's `elems` and then its `kids` are dropped
(core.rs:285-288, 259-263). -/
def dropRef (d : Dr σ α) (u : Bool) : Ref α → σ → Out σ α
  | .mk id own es ks, s =>
    if own then pre [id] (andField u (dropElems d u es s) (fun u s => dropRefs d u ks s))
    else (.fine, [id], s)
/-- core.rs:89-97 `clear` of `Kids`, 1229-1233. -/
def dropRefs (d : Dr σ α) (u : Bool) : List (Ref α) → σ → Out σ α
  | [], s => (.fine, [], s)
  | c :: ks, s => andLoop (dropRef d u c s) (fun s => dropRefs d u ks s)
end

/-- core.rs:1092-1098 `NodeIntoIter`: `ex`, `ee`, `kx`, `ek` are `next_elem_x`, `end_elems`,
`next_kid_x`, `end_kids`; `own` tells `Owned` from `Leased`; `es`, `ks` are the slots of the node
below its `len`. -/
structure It (α : Type) where
  own : Bool
  es : List (α × α)
  ks : List (Ref α)
  ex : Nat
  ee : Nat
  kx : Nat
  ek : Nat

namespace It

/-- core.rs:1196-1211 `new`. -/
def new (own : Bool) (r : Ref α) : It α := ⟨own, r.es, r.ks, 0, r.es.length, 0, r.ks.length⟩

/-- What `next` does: the iterator after, and the iterator of a child, if it descends; the last
component is what was moved out of a slot.  `none`: there is nothing left. -/
inductive Act (α : Type) where
  | desc (w : It α) (c : It α) (gone : List α)
  | ret (w : It α) (gone : List α)
  | none

/-- core.rs:1107-1143 `next`, and `NI::new` of the child (1277).  From a leased node things are
cloned (1115, 1132-1135), and the clone of a child is never the last `Arc` (1119-1124).  The outer
`none` is a read out of bounds. -/
def next (w : It α) : Option (Act α) :=
  if w.kx < w.ek ∧ w.kx ≤ w.ex then
    match w.ks[w.kx]? with
    | none => none
    | some c => some (.desc {w with kx := w.kx + 1} (new (w.own && c.own) c)
        (if w.own then [c.id] else []))
  else if w.ex < w.ee then
    match w.es[w.ex]? with
    | none => none
    | some e => some (.ret {w with ex := w.ex + 1} (if w.own then [e.1, e.2] else []))
  else some .none

/-- core.rs:1216-1236 `Drop for NodeIntoIter`, followed by the drop of its field `n`.

If an element's destructor panics (1223-1224), `n.elems.len` has not been set to 0 (1227), and the
drop of `n` clears all the slots of `elems` and of `kids`.  If the panic comes from a child (1232),
`kids.len` has not been set to 0 (1235), and the drop of the local `kids` clears all its slots. -/
def drop (d : Dr σ α) (u : Bool) (w : It α) (s : σ) : Out σ α :=
  if w.own then
    match dropElems d u ((w.es.drop w.ex).take (w.ee - w.ex)) s with
    | (.abort, l, s) => (.abort, l, s)
    | (.panic, l, s) =>
      match andField true (dropElems d true w.es s) (fun u s => dropRefs d u w.ks s) with
      | (.fine, l', s) => (.panic, l ++ l', s)
      | (_, l', s) => (.abort, l ++ l', s)
    | (.fine, l, s) =>
      match dropRefs d u ((w.ks.drop w.kx).take (w.ek - w.kx)) s with
      | (.abort, l', s) => (.abort, l ++ l', s)
      | (.panic, l', s) =>
        match dropRefs d true w.ks s with
        | (.fine, l2, s) => (.panic, l ++ (l' ++ l2), s)
        | (_, l2, s) => (.abort, l ++ (l' ++ l2), s)
      | (.fine, l', s) => (.fine, l ++ l', s)
  else (.fine, [], s)

end It

/-- An `IntoIter` (core.rs:1239-1242 `work`) and all that was moved out of slots so far. -/
structure Mach (α : Type) where
  work : List (It α)
  gone : List α

namespace Mach

/-- core.rs:1246-1257 `InnerIter::new`, with the root as `try_unwrap` finds it. -/
def new (r : Ref α) : Mach α := ⟨[It.new r.own r], [r.id]⟩

/-- One round of the loop of `InnerIter::next` (core.rs:1266-1283). -/
def front (m : Mach α) : Option (Mach α) :=
  match m.work with
  | [] => some m
  | w :: ws =>
    match w.next with
    | none => none
    | some (.ret w g) => some ⟨w :: ws, m.gone ++ g⟩
    | some (.desc w c g) => some ⟨c :: w :: ws, m.gone ++ g⟩
    | some .none => some ⟨ws, m.gone⟩

/-- One round of the loop of `InnerIter::next_back` (core.rs:1288-1303), which calls `next` of the
node iterator. -/
def back (m : Mach α) : Option (Mach α) :=
  match m.work.getLast? with
  | none => some m
  | some w =>
    match w.next with
    | none => none
    | some (.ret w g) => some ⟨m.work.dropLast ++ [w], m.gone ++ g⟩
    | some (.desc w c g) => some ⟨m.work.dropLast ++ [w, c], m.gone ++ g⟩
    | some .none => some ⟨m.work.dropLast, m.gone⟩

/-- Rounds of the two loops in any order (`true`: `next`).  A node iterator that is removed has
nothing left, so its drop destroys nothing. -/
def run (m : Mach α) : List Bool → Option (Mach α)
  | [] => some m
  | b :: bs =>
    match if b then m.front else m.back with
    | none => none
    | some m => m.run bs

/-- The drop of `work`, a `VecDeque`: one node iterator after the other, also after a panic. -/
def dropWork (d : Dr σ α) (u : Bool) : List (It α) → σ → Out σ α
  | [], s => (.fine, [], s)
  | w :: ws, s => andField u (w.drop d u s) (fun u s => dropWork d u ws s)

/-- Drop of the `IntoIter`: how it ends, and everything given away or destroyed since `into_iter`. -/
def drop (d : Dr σ α) (m : Mach α) (s : σ) : How × List α :=
  ((dropWork d false m.work s).1, m.gone ++ (dropWork d false m.work s).2.1)

end Mach

mutual
/-- Everything whose owner is the reference: the `Arc` itself and, if it is the last one, all that
the node owns. -/
def Ref.owned : Ref α → List α
  | .mk id own es ks => id :: if own then es.flatMap (fun e => [e.1, e.2]) ++ ownedAll ks else []
def ownedAll : List (Ref α) → List α
  | [] => []
  | c :: ks => c.owned ++ ownedAll ks
end

mutual
/-- Every node has one child more than elements, or none (the shape of a B-tree). -/
def Ref.Shape : Ref α → Prop
  | .mk _ _ es ks => (ks = [] ∨ ks.length = es.length + 1) ∧ ShapeAll ks
def ShapeAll : List (Ref α) → Prop
  | [] => True
  | c :: ks => c.Shape ∧ ShapeAll ks
end

end Verif.Fixed.Raw
