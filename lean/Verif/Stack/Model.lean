import Verif.Heap.Wp
import Verif.Spec.Lex
/-!
# Model of `src/stack.rs` on reference-counted memory

A node (`List<T>`, stack.rs:8-12) is a heap node with data `elem` and the single link `rest`.
`&mut OptList<T>` parameters and loop variables become "take the link, return the new link".
Loops and the recursion of dropping are given the bound `len + 1`; that this suffices is part
of what is proved (a program that exceeds a bound panics).
-/
namespace Verif.Stack
open Heap

/-- stack.rs:43-47 `Stack`. -/
structure Stack (T : Type) where
  len : Nat
  elems : Option Nat

variable {T : Type}

namespace Stack

/-- stack.rs:120-125 `new`, 495-499 `default`. -/
def new : Stack T := ⟨0, none⟩

/-- stack.rs:43 `derive(Clone)`. -/
def clone (s : Stack T) : Prog T (Stack T) :=
  (cloneRef s.elems).bind fun e => .pure ⟨s.len, e⟩

/-- stack.rs:206-212 `push`. -/
def push (s : Stack T) (x : T) : Prog T (Stack T) :=
  (lift (.alloc ⟨x, [s.elems]⟩)).bind fun a => .pure ⟨s.len + 1, some a⟩

/-- stack.rs:227-229 `top`. -/
def top (s : Stack T) : Prog T (Option T) :=
  match s.elems with
  | none => .pure none
  | some a => (lift (.read a [])).bind fun n => .pure (some n.data)

/-- stack.rs:249-254 `top_mut`, the closure `g` standing for what the caller does with the
reference; the result tells whether there was one. -/
def topMut (s : Stack T) (g : T → T) : Prog T (Stack T × Bool) :=
  match s.elems with
  | none => .pure (s, false)
  | some a =>
    (makeMut (s.len + 1) a).bind fun a' =>
    (lift (.open a')).bind fun n =>
    (lift (.close a' ⟨g n.data, n.kids⟩)).bind fun _ => .pure (⟨s.len, some a'⟩, true)

/-- The two arms of `match Rc::try_unwrap(rc)` in `pop` (stack.rs:267-277) and `remove`
(392-402): the new link and the element. -/
def unlink (D : Nat) (a : Nat) : Prog T (Option Nat × T) :=
  (lift (.tryUnwrap a)).bind fun
    | some n =>
      match n.kids with
      | [rest] => .pure (rest, n.data)
      | _ => .panic
    | none =>
      (lift (.incAt a [] 0)).bind fun rest =>
      (lift (.read a [])).bind fun n =>
      (drop D (some a)).bind fun _ => .pure (rest, n.data)

/-- stack.rs:257-280 `pop`; `self.len -= 1` panics on underflow. -/
def pop (s : Stack T) : Prog T (Stack T × Option T) :=
  match s.elems with
  | none => .pure (s, none)
  | some a =>
    if s.len = 0 then .panic else
      (unlink (s.len + 1) a).bind fun x => .pure (⟨s.len - 1, x.1⟩, some x.2)

/-- stack.rs:311-313, the loop of `clear`; `hd = next.rest.take()` drops the old `hd`.  The last
`hd` is dropped at the end of the function. -/
def clearLoop (D : Nat) : Nat → Option Nat → Prog T Unit
  | _, none => .pure ()
  | 0, some _ => .panic
  | n + 1, some a =>
    (lift (.isUnique a)).bind fun (b : Bool) =>
      if b then
        (lift (.open a)).bind fun c =>
        match c.kids with
        | [rest] =>
          (lift (.close a ⟨c.data, [none]⟩)).bind fun _ =>
          (drop D (some a)).bind fun _ => clearLoop D n rest
        | _ => .panic
      else drop D (some a)

/-- stack.rs:306-314 `clear`; 501-506 `drop` does the same. -/
def clear (s : Stack T) : Prog T (Stack T) :=
  (clearLoop (s.len + 1) (s.len + 1) s.elems).bind fun _ => .pure new

/-- stack.rs:64-73 `Iter::next`.  The state `i` says that `self.next` is the link reached from
`self.elems` after `i` nodes. -/
def iterNext (s : Stack T) (i : Nat) : Prog T (Option T × Nat) :=
  let follow : Option Nat → Prog T (Option T × Nat) := fun link =>
    match s.elems, link with
    | some a, some _ =>
      (lift (.read a (List.replicate i 0))).bind fun n => .pure (some n.data, i + 1)
    | _, _ => .pure (none, i)
  match i, s.elems with
  | _, none => .pure (none, i)
  | 0, some a => follow (some a)
  | j + 1, some a =>
    (lift (.read a (List.replicate j 0))).bind fun n =>
      match n.kids with
      | [link] => follow link
      | _ => .panic

/-- The results of `n` calls of `next` from state `i`. -/
def iterRun (s : Stack T) : Nat → Nat → Prog T (List (Option T))
  | _, 0 => .pure []
  | i, n + 1 =>
    (iterNext s i).bind fun x => (iterRun s x.2 n).bind fun xs => .pure (x.1 :: xs)

/-- Calls of `next` until it returns `None`: what adaptors such as `any`, `zip`, `cmp` and
`collect` see.  (Those that stop early see a prefix; nobody can tell the difference.) -/
def iterAll (s : Stack T) : Nat → Nat → Prog T (List T)
  | _, 0 => .panic
  | i, n + 1 =>
    (iterNext s i).bind fun x =>
      match x.1 with
      | none => .pure []
      | some y => (iterAll s x.2 n).bind fun ys => .pure (y :: ys)

/-- stack.rs:157-159 `iter`, run to its end. -/
def iter (s : Stack T) : Prog T (List T) := iterAll s 0 (s.len + 1)

/-- stack.rs:84-97 `IterMut::next`, called `n` times (or until the end), the closure `g` standing
for what the caller does with the references, given how many there were before. -/
def iterMutLoop (D : Nat) (g : Nat → T → T) : Nat → Nat → Option Nat → Prog T (Option Nat)
  | _, 0, link => .pure link
  | _, _ + 1, none => .pure none
  | i, n + 1, some a =>
    (makeMut D a).bind fun a' =>
    (lift (.open a')).bind fun c =>
    match c.kids with
    | [rest] =>
      (iterMutLoop D g (i + 1) n rest).bind fun rest' =>
      (lift (.close a' ⟨g i c.data, [rest']⟩)).bind fun _ => .pure (some a')
    | _ => .panic

/-- stack.rs:189-193 `iter_mut` with up to `n` calls of `next`. -/
def iterMut (s : Stack T) (n : Nat) (g : Nat → T → T) : Prog T (Stack T) :=
  (iterMutLoop (s.len + 1) g 0 n s.elems).bind fun e => .pure ⟨s.len, e⟩

/-- stack.rs:291-293 `len`. -/
def length (s : Stack T) : Nat := s.len

/-- stack.rs:344-346 `is_empty`. -/
def isEmpty (s : Stack T) : Bool := s.len == 0

/-- stack.rs:326-331 `contains`. -/
def contains (eqT : T → T → Bool) (s : Stack T) (x : T) : Prog T Bool :=
  (iter s).bind fun l => .pure (l.any (fun y => eqT x y))

/-- stack.rs:378-402, the loop of `remove` and what follows: new link and removed element. -/
def removeLoop (D : Nat) : Nat → Option Nat → Prog T (Option Nat × T)
  | _, none => .panic
  | 0, some a => unlink D a
  | i + 1, some a =>
    (makeMut D a).bind fun a' =>
    (lift (.open a')).bind fun c =>
    match c.kids with
    | [rest] =>
      (removeLoop D i rest).bind fun x =>
      (lift (.close a' ⟨c.data, [x.1]⟩)).bind fun _ => .pure (some a', x.2)
    | _ => .panic

/-- stack.rs:367-403 `remove`. -/
def remove (s : Stack T) (i : Nat) : Prog T (Stack T × T) :=
  if i ≥ s.len then .panic else
    (removeLoop (s.len + 1) (s.len - 1 - i) s.elems).bind fun x =>
      .pure (⟨s.len - 1, x.1⟩, x.2)

/-- stack.rs:452-464, the loop of `split_off` and the split: (bottom, top). -/
def splitLoop (D : Nat) : Nat → Option Nat → Prog T (Option Nat × Option Nat)
  | 0, curr => .pure (curr, none)
  | _ + 1, none => .panic
  | i + 1, some a =>
    (makeMut D a).bind fun a' =>
    (lift (.open a')).bind fun c =>
    match c.kids with
    | [rest] =>
      (splitLoop D i rest).bind fun x =>
      (lift (.close a' ⟨c.data, [x.2]⟩)).bind fun _ => .pure (x.1, some a')
    | _ => .panic

/-- stack.rs:426-473 `split_off`: what is left and what is returned. -/
def splitOff (s : Stack T) (i : Nat) : Prog T (Stack T × Stack T) :=
  if i > s.len then .panic
  else if i = 0 then .pure (new, ⟨s.len, s.elems⟩)
  else if i = s.len then .pure (s, new)
  else
    (splitLoop (s.len + 1) (s.len - i) s.elems).bind fun x =>
      .pure (⟨s.len - (s.len - i), x.1⟩, ⟨s.len - i, x.2⟩)

/-- stack.rs:596-600 `extend`. -/
def extend (s : Stack T) : List T → Prog T (Stack T)
  | [] => .pure s
  | x :: xs => (push s x).bind fun s' => extend s' xs

/-- stack.rs:603-614 `from`, `from_iter`. -/
def fromIter (xs : List T) : Prog T (Stack T) := extend new xs

/-- stack.rs:99-109, 526-528 `IntoIter`: `n` calls of `next` on the stack inside. -/
def intoIterRun (s : Stack T) : Nat → Prog T (Stack T × List (Option T))
  | 0 => .pure (s, [])
  | n + 1 =>
    (pop s).bind fun x => (intoIterRun x.1 n).bind fun y => .pure (y.1, x.2 :: y.2)

/-- stack.rs:533-535 `eq`. -/
def eqStack (eqT : T → T → Bool) (s r : Stack T) : Prog T Bool :=
  if s.len = r.len then
    (iter s).bind fun l => (iter r).bind fun l' =>
      .pure ((l.zip l').all (fun x => eqT x.1 x.2))
  else .pure false

/-- stack.rs:546-569, the loop of `partial_cmp` on what the two iterators yield. -/
def partialCmpLoop (cmpT : T → T → Option Ordering) : List T → List T → Option Ordering
  | a :: as, b :: bs =>
    match cmpT a b with
    | some .eq => partialCmpLoop cmpT as bs
    | res => res
  | [], _ :: _ => some .lt
  | _ :: _, [] => some .gt
  | [], [] => some .eq

/-- stack.rs:542-570 `partial_cmp`. -/
def partialCmpStack (cmpT : T → T → Option Ordering) (s r : Stack T) : Prog T (Option Ordering) :=
  (iter s).bind fun l => (iter r).bind fun l' => .pure (partialCmpLoop cmpT l l')

/-- stack.rs:574-576 `cmp` (`Iterator::cmp`). -/
def cmpStack (cmpT : T → T → Ordering) (s r : Stack T) : Prog T Ordering :=
  (iter s).bind fun l => (iter r).bind fun l' => .pure (Spec.lexCmp cmpT l l')

end Stack
end Verif.Stack
