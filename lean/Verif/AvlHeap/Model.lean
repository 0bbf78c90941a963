import Verif.Heap.Wp
import Verif.Avl.Model
/-!
# Model of `src/avl.rs` on reference-counted memory, node level

The same functions as in `Verif.Avl.Model`, now with every `Arc` operation they perform.  A node
(avl.rs:63-71) is a heap node with data `ND` and the two links `left`, `right`.

* A parameter `&mut OptNode` becomes "take the link, return the new link": while the callee works
  on the link, the node that contains it is open (`Op.open`), which is what its exclusive borrow
  amounts to; it is closed when the borrow ends.
* `D` bounds the recursion of dropping (`Heap.drop`); the other number is the depth of recursion
  available to the function.  A program that exceeds a bound panics; that the bounds chosen by
  the map functions suffice is part of what is proved.
* `Clone` of a key or value returns an equal value.
-/
namespace Verif.AvlH
open Heap

/-- The plain data of avl.rs:63-71 `Node`. -/
structure ND (K V : Type) where
  key : K
  val : V
  lh : Int
  rh : Int

variable {K V : Type}

/-- avl.rs:95-97 `bal`. -/
def ND.bal (d : ND K V) : Int := d.rh - d.lh

/-- avl.rs:105-107 `Node::height`. -/
def ND.height (d : ND K V) : Int := max d.lh d.rh + 1

/-! ## Access to a node -/

/-- What `&mut Node` gives: the contents of a node that is ours alone. -/
def openN (a : Nat) : Prog (ND K V) (ND K V × Option Nat × Option Nat) :=
  (lift (.open a)).bind fun n =>
    match n.kids with
    | [l, r] => .pure (n.data, l, r)
    | _ => .panic

/-- The end of the borrow. -/
def closeN (a : Nat) (d : ND K V) (l r : Option Nat) : Prog (ND K V) Unit :=
  lift (.close a ⟨d, [l, r]⟩)

/-- A shared reference to the node reached from handle `a` by the links in `path` (0 = left,
1 = right): its data, and whether it has a left and a right child. -/
def readN (a : Nat) (path : List Nat) : Prog (ND K V) (ND K V × Bool × Bool) :=
  (lift (.read a path)).bind fun n =>
    match n.kids with
    | [l, r] => .pure (n.data, l.isSome, r.isSome)
    | _ => .panic

/-- avl.rs:340-347 `take_node` on `Some(a)`. -/
def takeNode (a : Nat) : Prog (ND K V) (ND K V × Option Nat × Option Nat) :=
  (lift (.tryUnwrap a)).bind fun
    | some n =>
      match n.kids with
      | [l, r] => .pure (n.data, l, r)
      | _ => .panic
    | none => .panic

/-- `Arc::try_unwrap` or else clone (avl.rs:870-873, 959-962, 2173-2176). -/
def unwrapN (D a : Nat) : Prog (ND K V) (ND K V × Option Nat × Option Nat) :=
  (unwrapOrClone D a).bind fun n =>
    match n.kids with
    | [l, r] => .pure (n.data, l, r)
    | _ => .panic

/-- avl.rs:317-319 `height`. -/
def height : Option Nat → Prog (ND K V) Int
  | none => .pure 0
  | some a => (readN a []).bind fun x => .pure x.1.height

/-- avl.rs:74-92 `Node::new`/`opt_new`. -/
def optNew (k : K) (v : V) (l r : Option Nat) : Prog (ND K V) (Option Nat) :=
  (height l).bind fun hl =>
  (height r).bind fun hr =>
  (lift (.alloc ⟨⟨k, v, hl, hr⟩, [l, r]⟩)).bind fun a => .pure (some a)

/-! ## Rotations -/

/-- avl.rs:349-377 `rot_lf`. -/
def rotLf (D : Nat) : Option Nat → Prog (ND K V) (Option Nat × Bool)
  | none => .panic
  | some a =>
    (makeMut D a).bind fun a =>
    (openN a).bind fun x =>
    match x.2.2 with
    | none => .panic
    | some b =>
      (makeMut D b).bind fun b =>
      (openN b).bind fun y =>
      let ad := { x.1 with rh := y.1.lh }
      (closeN a ad x.2.1 y.2.1).bind fun _ =>
      (closeN b { y.1 with lh := ad.height } (some a) y.2.2).bind fun _ =>
      .pure (some b, !(y.1.bal == 0))

/-- avl.rs:423-454 `rot_rt`. -/
def rotRt (D : Nat) : Option Nat → Prog (ND K V) (Option Nat × Bool)
  | none => .panic
  | some a =>
    (makeMut D a).bind fun a =>
    (openN a).bind fun x =>
    match x.2.1 with
    | none => .panic
    | some b =>
      (makeMut D b).bind fun b =>
      (openN b).bind fun y =>
      let ad := { x.1 with lh := y.1.rh }
      (closeN a ad y.2.2 x.2.2).bind fun _ =>
      (closeN b { y.1 with rh := ad.height } y.2.1 (some a)).bind fun _ =>
      .pure (some b, !(y.1.bal == 0))

/-- avl.rs:379-421 `rot_rt_lf`. -/
def rotRtLf (D : Nat) : Option Nat → Prog (ND K V) (Option Nat × Bool)
  | none => .panic
  | some a =>
    (makeMut D a).bind fun a =>
    (openN a).bind fun x =>
    match x.2.2 with
    | none => .panic
    | some b =>
      (makeMut D b).bind fun b =>
      (openN b).bind fun y =>
      match y.2.1 with
      | none => .panic
      | some c =>
        (makeMut D c).bind fun c =>
        (openN c).bind fun z =>
        let ad := { x.1 with rh := z.1.lh }
        let bd := { y.1 with lh := z.1.rh }
        (closeN a ad x.2.1 z.2.1).bind fun _ =>
        (closeN b bd z.2.2 y.2.2).bind fun _ =>
        (closeN c { z.1 with lh := ad.height, rh := bd.height } (some a) (some b)).bind fun _ =>
        .pure (some c, true)

/-- avl.rs:456-493 `rot_lf_rt`. -/
def rotLfRt (D : Nat) : Option Nat → Prog (ND K V) (Option Nat × Bool)
  | none => .panic
  | some a =>
    (makeMut D a).bind fun a =>
    (openN a).bind fun x =>
    match x.2.1 with
    | none => .panic
    | some b =>
      (makeMut D b).bind fun b =>
      (openN b).bind fun y =>
      match y.2.2 with
      | none => .panic
      | some c =>
        (makeMut D c).bind fun c =>
        (openN c).bind fun z =>
        let bd := { y.1 with rh := z.1.lh }
        let ad := { x.1 with lh := z.1.rh }
        (closeN b bd y.2.1 z.2.1).bind fun _ =>
        (closeN a ad z.2.2 x.2.2).bind fun _ =>
        (closeN c { z.1 with lh := bd.height, rh := ad.height } (some b) (some a)).bind fun _ =>
        .pure (some c, true)

/-- avl.rs:496-508 `rebal_lf_to_rt` on `Some(a)`; `Arc::get_mut(..).unwrap()` panics if the node
is shared. -/
def rebalLfToRt (D a : Nat) : Prog (ND K V) (Option Nat × Bool) :=
  (lift (.isUnique a)).bind fun (u : Bool) =>
    if u then
      (readN a []).bind fun x =>
      if x.2.1 then
        (readN a [0]).bind fun y =>
        if y.1.bal ≤ 0 then rotRt D (some a) else rotLfRt D (some a)
      else .panic
    else .panic

/-- avl.rs:511-523 `rebal_rt_to_lf` on `Some(a)`. -/
def rebalRtToLf (D a : Nat) : Prog (ND K V) (Option Nat × Bool) :=
  (lift (.isUnique a)).bind fun (u : Bool) =>
    if u then
      (readN a []).bind fun x =>
      if x.2.2 then
        (readN a [1]).bind fun y =>
        if y.1.bal ≥ 0 then rotLf D (some a) else rotRtLf D (some a)
      else .panic
    else .panic

/-! ## Insertion and removal -/

/-- The tail of the `Less` arm of `ins` (avl.rs:549-555): the node `a` is open with data `d` and
links `l`, `r`; result: link and `IsTaller`. -/
def afterInsLf (D a : Nat) (d : ND K V) (l r : Option Nat) (taller : Bool) :
    Prog (ND K V) (Option Nat × Bool) :=
  let d := { d with lh := d.lh + (if taller then 1 else 0) }
  (closeN a d l r).bind fun _ =>
  if taller && decide (d.bal < -1) then
    (rebalLfToRt D a).bind fun x => .pure (x.1, false)
  else .pure (some a, taller && decide (d.bal < 0))

/-- The tail of the `Greater` arm of `ins` (avl.rs:560-566). -/
def afterInsRt (D a : Nat) (d : ND K V) (l r : Option Nat) (taller : Bool) :
    Prog (ND K V) (Option Nat × Bool) :=
  let d := { d with rh := d.rh + (if taller then 1 else 0) }
  (closeN a d l r).bind fun _ =>
  if taller && decide (d.bal > 1) then
    (rebalRtToLf D a).bind fun x => .pure (x.1, false)
  else .pure (some a, taller && decide (d.bal > 0))

/-- avl.rs:527-569 `ins`. -/
def ins [Ord K] (D : Nat) (k : K) (v : V) :
    Nat → Option Nat → Prog (ND K V) (Option Nat × Option V × Bool)
  | _, none => (optNew k v none none).bind fun r => .pure (r, none, true)
  | 0, some _ => .panic
  | n + 1, some a =>
    (makeMut D a).bind fun a =>
    (openN a).bind fun x =>
    match compare k x.1.key with
    | .eq =>
      (closeN a { x.1 with key := k, val := v } x.2.1 x.2.2).bind fun _ =>
      .pure (some a, some x.1.val, false)
    | .lt =>
      (ins D k v n x.2.1).bind fun y =>
      (afterInsLf D a x.1 y.1 x.2.2 y.2.2).bind fun z => .pure (z.1, y.2.1, z.2)
    | .gt =>
      (ins D k v n x.2.2).bind fun y =>
      (afterInsRt D a x.1 x.2.1 y.1 y.2.2).bind fun z => .pure (z.1, y.2.1, z.2)

/-- Height bookkeeping after the *left* subtree was (possibly) shortened
(avl.rs:585-590 and 641-646). -/
def afterRmLf (D a : Nat) (d : ND K V) (l r : Option Nat) (shorter : Bool) :
    Prog (ND K V) (Option Nat × Bool) :=
  let d := { d with lh := d.lh - (if shorter then 1 else 0) }
  (closeN a d l r).bind fun _ =>
  if shorter && decide (d.bal > 1) then rebalRtToLf D a
  else .pure (some a, shorter && decide (d.bal = 0))

/-- Height bookkeeping after the *right* subtree was (possibly) shortened
(avl.rs:612-617, 651-656 and 685-691). -/
def afterRmRt (D a : Nat) (d : ND K V) (l r : Option Nat) (shorter : Bool) :
    Prog (ND K V) (Option Nat × Bool) :=
  let d := { d with rh := d.rh - (if shorter then 1 else 0) }
  (closeN a d l r).bind fun _ =>
  if shorter && decide (d.bal < -1) then rebalLfToRt D a
  else .pure (some a, shorter && decide (d.bal = 0))

/-- avl.rs:573-596 `rm_leftmost`. -/
def rmLeftmost (D : Nat) : Nat → Option Nat →
    Prog (ND K V) (Option Nat × Option (K × V) × Bool)
  | _, none => .pure (none, none, false)
  | 0, some _ => .panic
  | n + 1, some a =>
    (makeMut D a).bind fun a =>
    (readN a []).bind fun s =>
    if s.2.1 then
      (openN a).bind fun x =>
      (rmLeftmost D n x.2.1).bind fun y =>
      (afterRmLf D a x.1 y.1 x.2.2 y.2.2).bind fun z => .pure (z.1, y.2.1, z.2)
    else
      -- the left link is empty
      (takeNode a).bind fun x => .pure (x.2.2, some (x.1.key, x.1.val), true)

/-- avl.rs:600-623 `rm_rightmost`. -/
def rmRightmost (D : Nat) : Nat → Option Nat →
    Prog (ND K V) (Option Nat × Option (K × V) × Bool)
  | _, none => .pure (none, none, false)
  | 0, some _ => .panic
  | n + 1, some a =>
    (makeMut D a).bind fun a =>
    (readN a []).bind fun s =>
    if s.2.2 then
      (openN a).bind fun x =>
      (rmRightmost D n x.2.2).bind fun y =>
      (afterRmRt D a x.1 x.2.1 y.1 y.2.2).bind fun z => .pure (z.1, y.2.1, z.2)
    else
      (takeNode a).bind fun x => .pure (x.2.1, some (x.1.key, x.1.val), true)

/-- avl.rs:627-695 `rm`. -/
def rm (D : Nat) (p : K → Ordering) : Nat → Option Nat →
    Prog (ND K V) (Option Nat × Option (K × V) × Bool)
  | _, none => .pure (none, none, false)
  | 0, some _ => .panic
  | n + 1, some a =>
    (makeMut D a).bind fun a =>
    (readN a []).bind fun s =>
    match p s.1.key with
    | .lt =>
      (openN a).bind fun x =>
      (rm D p n x.2.1).bind fun y =>
      (afterRmLf D a x.1 y.1 x.2.2 y.2.2).bind fun z => .pure (z.1, y.2.1, z.2)
    | .gt =>
      (openN a).bind fun x =>
      (rm D p n x.2.2).bind fun y =>
      (afterRmRt D a x.1 x.2.1 y.1 y.2.2).bind fun z => .pure (z.1, y.2.1, z.2)
    | .eq =>
      match s.2.1, s.2.2 with
      | false, false => (takeNode a).bind fun x => .pure (none, some (x.1.key, x.1.val), true)
      | false, true => (takeNode a).bind fun x => .pure (x.2.2, some (x.1.key, x.1.val), true)
      | true, false => (takeNode a).bind fun x => .pure (x.2.1, some (x.1.key, x.1.val), true)
      | true, true =>
        (openN a).bind fun x =>
        (rmLeftmost D n x.2.2).bind fun y =>
        match y.2.1 with
        | none => .panic
        | some (sk, sv) =>
          (afterRmRt D a { x.1 with key := sk, val := sv } x.2.1 y.1 y.2.2).bind fun z =>
          .pure (z.1, some (x.1.key, x.1.val), z.2)

/-! ## Join, split, merge, retain -/

/-- avl.rs:719-757 `join_rt`. -/
def joinRt (D : Nat) (k : K) (v : V) : Nat → Nat → Option Nat → Prog (ND K V) (Option Nat)
  | 0, _, _ => .panic
  | n + 1, left, right =>
    (readN left []).bind fun s =>
    (height right).bind fun hr =>
    if s.1.height > hr + 1 then
      (makeMut D left).bind fun t2 =>
      (openN t2).bind fun x =>
      (height x.2.2).bind fun hc =>
      (height right).bind fun hr =>
      if hc ≤ hr + 1 then
        (optNew k v x.2.2 right).bind fun t1 =>
        (height t1).bind fun h1 =>
        if Avl.Tree.isBal (h1 - x.1.lh) then
          (closeN t2 { x.1 with rh := h1 } x.2.1 t1).bind fun _ => .pure (some t2)
        else
          (rotRt D t1).bind fun y =>
          (closeN t2 { x.1 with rh := if y.2 then h1 - 1 else h1 } x.2.1 y.1).bind fun _ =>
          (rotLf D (some t2)).bind fun z => .pure z.1
      else
        match x.2.2 with
        | none => .panic
        | some c =>
          (joinRt D k v n c right).bind fun t1 =>
          (height t1).bind fun h1 =>
          (closeN t2 { x.1 with rh := h1 } x.2.1 t1).bind fun _ =>
          if Avl.Tree.isBal (h1 - x.1.lh) then .pure (some t2)
          else (rotLf D (some t2)).bind fun z => .pure z.1
    else .panic

/-- avl.rs:759-798 `join_lf`, including the `assert!` of line 785. -/
def joinLf (D : Nat) (k : K) (v : V) : Nat → Option Nat → Nat → Prog (ND K V) (Option Nat)
  | 0, _, _ => .panic
  | n + 1, left, right =>
    (readN right []).bind fun s =>
    (height left).bind fun hl =>
    if s.1.height > hl + 1 then
      (makeMut D right).bind fun t2 =>
      (openN t2).bind fun x =>
      (height x.2.1).bind fun hc =>
      (height left).bind fun hl =>
      if hc ≤ hl + 1 then
        (optNew k v left x.2.1).bind fun t1 =>
        (height t1).bind fun h1 =>
        if Avl.Tree.isBal (x.1.rh - h1) then
          (closeN t2 { x.1 with lh := h1 } t1 x.2.2).bind fun _ => .pure (some t2)
        else
          (rotLf D t1).bind fun y =>
          (closeN t2 { x.1 with lh := if y.2 then h1 - 1 else h1 } y.1 x.2.2).bind fun _ =>
          (rotRt D (some t2)).bind fun z =>
          match z.1 with
          | none => .panic
          | some t2 =>
            (readN t2 []).bind fun w =>
            if Avl.Tree.isBal w.1.bal then .pure (some t2) else .panic
      else
        match x.2.1 with
        | none => .panic
        | some c =>
          (joinLf D k v n left c).bind fun t1 =>
          (height t1).bind fun h1 =>
          (closeN t2 { x.1 with lh := h1 } t1 x.2.2).bind fun _ =>
          if Avl.Tree.isBal (x.1.rh - h1) then .pure (some t2)
          else (rotRt D (some t2)).bind fun z => .pure z.1
    else .panic

/-- avl.rs:802-816 `join`. -/
def join (D n : Nat) (l : Option Nat) (k : K) (v : V) (r : Option Nat) :
    Prog (ND K V) (Option Nat) :=
  (height r).bind fun hr =>
  (height l).bind fun hl =>
  if hr - hl < -1 then
    match l with
    | none => .panic
    | some l => joinRt D k v n l r
  else if hr - hl > 1 then
    match r with
    | none => .panic
    | some r => joinLf D k v n l r
  else optNew k v l r

/-- avl.rs:818-833 `join2`. -/
def join2 (D n : Nat) (l : Option Nat) (kv : Option (K × V)) (r : Option Nat) :
    Prog (ND K V) (Option Nat) :=
  match kv with
  | some (k, v) => join D n l k v r
  | none =>
    match l, r with
    | none, r => .pure r
    | some l, none => .pure (some l)
    | some l, some r =>
      (rmLeftmost D n (some r)).bind fun x =>
      match x.2.1 with
      | none => .panic
      | some (k, v) => join D n (some l) k v x.1

/-- The end of `retain` (avl.rs:712-716): the closure's answer for the node `a` with entry
`k`, the subtrees being `l` and `r`.  If the closure panics, unwinding drops the locals, latest
first. -/
def retainEnd {σ : Type} (D a : Nat) (k : K) (l r : Option Nat) (n : Nat) :
    Option (σ × V × Bool) → Prog (ND K V) (Option (σ × Option Nat × Nat))
  | none =>
    (drop D r).bind fun _ => (drop D l).bind fun _ => (drop D (some a)).bind fun _ => .pure none
  | some (s, v, true) =>
    (join D D l k v r).bind fun t =>
    (drop D (some a)).bind fun _ => .pure (some (s, t, n + 1))
  | some (s, _, false) =>
    (join2 D D l none r).bind fun t =>
    (drop D (some a)).bind fun _ => .pure (some (s, t, n))

/-- avl.rs:697-717 `retain`: the root stays in our hands while clones of its links are worked on;
it is dropped at the end of the function, after its result has been computed (locals are dropped
when the function returns).  The closure is as in `Avl.Tree.retain`; the result is `none` if it
panicked: the panic passes through all callers, dropping what they hold. -/
def retain {σ : Type} (D : Nat) (f : σ → K → V → Option (σ × V × Bool)) :
    Nat → σ → Option Nat → Prog (ND K V) (Option (σ × Option Nat × Nat))
  | _, s, none => .pure (some (s, none, 0))
  | 0, _, some _ => .panic
  | n + 1, s, some a =>
    (lift (.incAt a [] 0)).bind fun l =>
    (retain D f n s l).bind fun
    | none => (drop D (some a)).bind fun _ => .pure none
    | some x =>
      (lift (.incAt a [] 1)).bind fun r =>
      (retain D f n x.1 r).bind fun
      | none => (drop D x.2.1).bind fun _ => (drop D (some a)).bind fun _ => .pure none
      | some y =>
        (readN a []).bind fun e =>
        retainEnd D a e.1.key x.2.1 y.2.1 (x.2.2 + y.2.2) (f y.1 e.1.key e.1.val)

/-- avl.rs:945-979 `split`. -/
def split (D : Nat) (p : K → Ordering) : Nat → Option Nat →
    Prog (ND K V) (Option Nat × Option (K × V) × Option Nat)
  | _, none => .pure (none, none, none)
  | 0, some _ => .panic
  | n + 1, some a =>
    (unwrapN D a).bind fun x =>
    match p x.1.key with
    | .eq => .pure (x.2.1, some (x.1.key, x.1.val), x.2.2)
    | .lt =>
      (split D p n x.2.1).bind fun y =>
      (join D D y.2.2 x.1.key x.1.val x.2.2).bind fun t => .pure (y.1, y.2.1, t)
    | .gt =>
      (split D p n x.2.2).bind fun y =>
      (join D D x.2.1 x.1.key x.1.val y.1).bind fun t => .pure (t, y.2.1, y.2.2)

/-- avl.rs:856-884 `Merger::merge`.  Returning early drops what is not returned. -/
def merge [Ord K] (D : Nat) (keepL keepR : Bool) (dec : K × V → K × V → Option (K × V)) :
    Nat → Option Nat → Option Nat → Prog (ND K V) (Option Nat)
  | _, none, t2 =>
    if keepR then .pure t2 else (drop D t2).bind fun _ => .pure none
  | _, some t1, none =>
    if keepL then .pure (some t1) else (drop D (some t1)).bind fun _ => .pure none
  | 0, some _, some _ => .panic
  | n + 1, some t1, some t2 =>
    (unwrapN D t1).bind fun x =>
    (split D (compare x.1.key) D (some t2)).bind fun y =>
    (merge D keepL keepR dec n x.2.1 y.1).bind fun l =>
    (merge D keepL keepR dec n x.2.2 y.2.2).bind fun r =>
    join2 D D l
      (match y.2.1 with
      | none => if keepL then some (x.1.key, x.1.val) else none
      | some e2 => dec (x.1.key, x.1.val) e2) r

/-! ## Access -/

/-- avl.rs:321-325 `len`, of the tree reached from `a` by `path`. -/
def lenAt (a : Nat) : Nat → List Nat → Prog (ND K V) Nat
  | 0, _ => .panic
  | n + 1, path =>
    (readN a path).bind fun x =>
    (if x.2.1 then lenAt a n (path ++ [0]) else .pure 0).bind fun nl =>
    (if x.2.2 then lenAt a n (path ++ [1]) else .pure 0).bind fun nr =>
    .pure (nl + 1 + nr)

/-- avl.rs:321-325 `len`. -/
def len (n : Nat) : Option Nat → Prog (ND K V) Nat
  | none => .pure 0
  | some a => lenAt a n []

/-- avl.rs:1087-1102 `get_key_value`, from the node reached by `path` on. -/
def getAt (a : Nat) (p : K → Ordering) : Nat → List Nat → Prog (ND K V) (Option (K × V))
  | 0, _ => .panic
  | n + 1, path =>
    (readN a path).bind fun x =>
    match p x.1.key with
    | .lt => if x.2.1 then getAt a p n (path ++ [0]) else .pure none
    | .eq => .pure (some (x.1.key, x.1.val))
    | .gt => if x.2.2 then getAt a p n (path ++ [1]) else .pure none

/-- avl.rs:1087-1102 `get_key_value`. -/
def getKeyValue (n : Nat) (p : K → Ordering) : Option Nat → Prog (ND K V) (Option (K × V))
  | none => .pure none
  | some a => getAt a p n []

/-- avl.rs:1051-1057, the loop of `first_key_value`. -/
def firstAt (a : Nat) : Nat → List Nat → Prog (ND K V) (Option (K × V))
  | 0, _ => .panic
  | n + 1, path =>
    (readN a path).bind fun x =>
    if x.2.1 then firstAt a n (path ++ [0]) else .pure (some (x.1.key, x.1.val))

/-- avl.rs:1051-1057 `first_key_value`. -/
def first (n : Nat) : Option Nat → Prog (ND K V) (Option (K × V))
  | none => .pure none
  | some a => firstAt a n []

/-- avl.rs:1337-1345, the loop of `last_key_value`. -/
def lastAt (a : Nat) : Nat → List Nat → Prog (ND K V) (Option (K × V))
  | 0, _ => .panic
  | n + 1, path =>
    (readN a path).bind fun x =>
    if x.2.2 then lastAt a n (path ++ [1]) else .pure (some (x.1.key, x.1.val))

/-- avl.rs:1337-1345 `last_key_value`. -/
def last (n : Nat) : Option Nat → Prog (ND K V) (Option (K × V))
  | none => .pure none
  | some a => lastAt a n []

/-- avl.rs:1116-1133 `get_mut`, then `g` on the referent.  All nodes on the way are made unique,
whether the key is found or not. -/
def getMutWith (D : Nat) (p : K → Ordering) (g : V → V) :
    Nat → Option Nat → Prog (ND K V) (Option Nat × Bool)
  | _, none => .pure (none, false)
  | 0, some _ => .panic
  | n + 1, some a =>
    (makeMut D a).bind fun a =>
    (openN a).bind fun x =>
    match p x.1.key with
    | .lt =>
      (getMutWith D p g n x.2.1).bind fun y =>
      (closeN a x.1 y.1 x.2.2).bind fun _ => .pure (some a, y.2)
    | .eq =>
      (closeN a { x.1 with val := g x.1.val } x.2.1 x.2.2).bind fun _ => .pure (some a, true)
    | .gt =>
      (getMutWith D p g n x.2.2).bind fun y =>
      (closeN a x.1 x.2.1 y.1).bind fun _ => .pure (some a, y.2)

/-- avl.rs:119-132 `Node::for_each`, 1864-1868. -/
def forEachAt {σ : Type} (a : Nat) (f : σ → K → V → σ) :
    Nat → List Nat → σ → Prog (ND K V) σ
  | 0, _, _ => .panic
  | n + 1, path, s =>
    (readN a path).bind fun x =>
    (if x.2.1 then forEachAt a f n (path ++ [0]) s else .pure s).bind fun s =>
    (if x.2.2 then forEachAt a f n (path ++ [1]) (f s x.1.key x.1.val)
      else .pure (f s x.1.key x.1.val))

/-- avl.rs:1864-1868 `for_each`. -/
def forEach {σ : Type} (n : Nat) (f : σ → K → V → σ) (s : σ) : Option Nat → Prog (ND K V) σ
  | none => .pure s
  | some a => forEachAt a f n [] s

/-- avl.rs:134-149 `Node::for_each_mut`, 1885-1893. -/
def forEachMut {σ : Type} (D : Nat) (f : σ → K → V → σ × V) :
    Nat → σ → Option Nat → Prog (ND K V) (σ × Option Nat)
  | _, s, none => .pure (s, none)
  | 0, _, some _ => .panic
  | n + 1, s, some a =>
    (makeMut D a).bind fun a =>
    (openN a).bind fun x =>
    (forEachMut D f n s x.2.1).bind fun y =>
    let z := f y.1 x.1.key x.1.val
    (forEachMut D f n z.1 x.2.2).bind fun w =>
    (closeN a { x.1 with val := z.2 } y.2 w.2).bind fun _ => .pure (w.1, some a)

end Verif.AvlH
