import Verif.Spec.Basic
/-!
# Model of `src/avl.rs`, node level

* A Rust panic (`unwrap` on `None`, failed `assert!`, explicit `panic!`) is the value
  `none` of an `Option` result.
* `i8` heights are `Int`; that no stored height leaves the range of `i8` is a
  separate theorem (C03).
* `Arc::make_mut`, `Arc::try_unwrap` and cloning are the identity at the level of
  values; sharing is the subject of `Verif.Heap`.
* A search key is a probe `p : K → Ordering`, `p k = q.cmp(k.borrow())`.
* `chk_node!`/`chk_map!` are the identity outside `cfg(test)` (avl.rs:48-60).
-/
namespace Verif.Avl

/-- avl.rs:15,63-71 `OptNode`/`Node`: `nil` is `None`; `lh`/`rh` are `left_ht`/`right_ht`. -/
inductive Tree (K V : Type _) where
  | nil
  | node (k : K) (v : V) (lh rh : Int) (l r : Tree K V)
  deriving DecidableEq, Repr

namespace Tree
variable {K V : Type _}

/-- avl.rs:105-107 `Node::height` and 317-319 `height`. -/
def height : Tree K V → Int
  | nil => 0
  | node _ _ lh rh _ _ => max lh rh + 1

/-- avl.rs:321-325 `len`. -/
def size : Tree K V → Nat
  | nil => 0
  | node _ _ _ _ l r => size l + 1 + size r

/-- Abstraction function (no counterpart in the code): the in-order entries. -/
def toList : Tree K V → List (K × V)
  | nil => []
  | node k v _ _ l r => toList l ++ (k, v) :: toList r

/-- avl.rs:74-92 `Node::new`/`opt_new`. -/
def mk (k : K) (v : V) (l r : Tree K V) : Tree K V :=
  node k v (height l) (height r) l r

/-- avl.rs:100-103 `is_bal` on a balance factor `bal`.  The code computes
`(bal + 1) as u8 <= 2`; for a `bal + 1` that fits `i8` this is the range test below
(`isBal_eq_cast`). -/
def isBal (bal : Int) : Bool := -1 ≤ bal && bal ≤ 1

/-- The single-comparison trick of avl.rs:102 (`as u8` = reduction mod 256). -/
theorem isBal_eq_cast {b : Int} (h : -128 ≤ b + 1) (h' : b + 1 ≤ 127) :
    isBal b = decide ((b + 1) % 256 ≤ 2) := by
  rw [Bool.eq_iff_iff, isBal, Bool.and_eq_true, decide_eq_true_eq, decide_eq_true_eq,
    decide_eq_true_eq]
  omega

/-- avl.rs:95-97 `bal`; `none` is the panic of `unwrap()` on an empty child at 503, 518. -/
def bal? : Tree K V → Option Int
  | nil => none
  | node _ _ lh rh _ _ => some (rh - lh)

/-- avl.rs:349-377 `rot_lf`: `a(x, b(y, z)) => b(a(x, y), z)`. -/
def rotLf : Tree K V → Option (Tree K V × Bool)
  | node ka va alh _ x (node kb vb blh brh y z) =>
    some (node kb vb (max alh blh + 1) brh (node ka va alh blh x y) z, !(brh - blh == 0))
  | _ => none

/-- avl.rs:423-454 `rot_rt`: `a(b(x, y), z) => b(x, a(y, z))`. -/
def rotRt : Tree K V → Option (Tree K V × Bool)
  | node ka va _ arh (node kb vb blh brh x y) z =>
    some (node kb vb blh (max brh arh + 1) x (node ka va brh arh y z), !(brh - blh == 0))
  | _ => none

/-- avl.rs:379-421 `rot_rt_lf`: `a(x, b(c(y, z), w)) => c(a(x, y), b(z, w))`. -/
def rotRtLf : Tree K V → Option (Tree K V × Bool)
  | node ka va alh _ x (node kb vb _ brh (node kc vc clh crh y z) w) =>
    some (node kc vc (max alh clh + 1) (max crh brh + 1)
      (node ka va alh clh x y) (node kb vb crh brh z w), true)
  | _ => none

/-- avl.rs:456-493 `rot_lf_rt`: `a(b(x, c(y, z)), w) => c(b(x, y), a(z, w))`. -/
def rotLfRt : Tree K V → Option (Tree K V × Bool)
  | node ka va _ arh (node kb vb blh _ x (node kc vc clh crh y z)) w =>
    some (node kc vc (max blh clh + 1) (max crh arh + 1)
      (node kb vb blh clh x y) (node ka va crh arh z w), true)
  | _ => none

/-- avl.rs:496-508 `rebal_lf_to_rt`. -/
def rebalLfToRt (t : Tree K V) : Option (Tree K V × Bool) :=
  match t with
  | nil => none
  | node _ _ _ _ l _ =>
    match bal? l with
    | none => none
    | some b => if b ≤ 0 then rotRt t else rotLfRt t

/-- avl.rs:511-523 `rebal_rt_to_lf`. -/
def rebalRtToLf (t : Tree K V) : Option (Tree K V × Bool) :=
  match t with
  | nil => none
  | node _ _ _ _ _ r =>
    match bal? r with
    | none => none
    | some b => if b ≥ 0 then rotLf t else rotRtLf t

/-- The tail of the `Less` arm of `ins` (avl.rs:549-555), with `n` the updated node:
result tree and `IsTaller`. -/
def afterInsLf (k : K) (v : V) (lh rh : Int) (l r : Tree K V) (taller : Bool) :
    Option (Tree K V × Bool) :=
  let lh := lh + (if taller then 1 else 0)
  if taller && decide (rh - lh < -1) then
    (rebalLfToRt (node k v lh rh l r)).map (fun x => (x.1, false))
  else some (node k v lh rh l r, taller && decide (rh - lh < 0))

/-- The tail of the `Greater` arm of `ins` (avl.rs:560-566). -/
def afterInsRt (k : K) (v : V) (lh rh : Int) (l r : Tree K V) (taller : Bool) :
    Option (Tree K V × Bool) :=
  let rh := rh + (if taller then 1 else 0)
  if taller && decide (rh - lh > 1) then
    (rebalRtToLf (node k v lh rh l r)).map (fun x => (x.1, false))
  else some (node k v lh rh l r, taller && decide (rh - lh > 0))

/-- avl.rs:527-569 `ins`: new tree, replaced value, `IsTaller`.
When the key is present, the *key* is replaced too (line 543). -/
def ins [Ord K] (k : K) (v : V) : Tree K V → Option (Tree K V × Option V × Bool)
  | nil => some (mk k v nil nil, none, true)
  | node nk nv lh rh l r =>
    match compare k nk with
    | .eq => some (node k v lh rh l r, some nv, false)
    | .lt =>
      match ins k v l with
      | none => none
      | some (l', old, taller) =>
        (afterInsLf nk nv lh rh l' r taller).map (fun x => (x.1, old, x.2))
    | .gt =>
      match ins k v r with
      | none => none
      | some (r', old, taller) =>
        (afterInsRt nk nv lh rh l r' taller).map (fun x => (x.1, old, x.2))

/-- Height bookkeeping after the *left* subtree was (possibly) shortened
(avl.rs:585-590 and 641-646): result tree and `IsShorter`. -/
def afterRmLf (k : K) (v : V) (lh rh : Int) (l r : Tree K V) (shorter : Bool) :
    Option (Tree K V × Bool) :=
  let lh := lh - (if shorter then 1 else 0)
  if shorter && decide (rh - lh > 1) then rebalRtToLf (node k v lh rh l r)
  else some (node k v lh rh l r, shorter && decide (rh - lh = 0))

/-- Height bookkeeping after the *right* subtree was (possibly) shortened
(avl.rs:612-617, 651-656 and 685-691). -/
def afterRmRt (k : K) (v : V) (lh rh : Int) (l r : Tree K V) (shorter : Bool) :
    Option (Tree K V × Bool) :=
  let rh := rh - (if shorter then 1 else 0)
  if shorter && decide (rh - lh < -1) then rebalLfToRt (node k v lh rh l r)
  else some (node k v lh rh l r, shorter && decide (rh - lh = 0))

/-- avl.rs:573-596 `rm_leftmost`: new tree, removed pair, `IsShorter`. -/
def rmLeftmost : Tree K V → Option (Tree K V × Option (K × V) × Bool)
  | nil => some (nil, none, false)
  | node k v _ _ nil r => some (r, some (k, v), true)
  | node k v lh rh (node lk lv llh lrh ll lr) r =>
    match rmLeftmost (node lk lv llh lrh ll lr) with
    | none => none
    | some (l', kv, shorter) =>
      (afterRmLf k v lh rh l' r shorter).map (fun x => (x.1, kv, x.2))

/-- avl.rs:600-623 `rm_rightmost`. -/
def rmRightmost : Tree K V → Option (Tree K V × Option (K × V) × Bool)
  | nil => some (nil, none, false)
  | node k v _ _ l nil => some (l, some (k, v), true)
  | node k v lh rh l (node rk rv rlh rrh rl rr) =>
    match rmRightmost (node rk rv rlh rrh rl rr) with
    | none => none
    | some (r', kv, shorter) =>
      (afterRmRt k v lh rh l r' shorter).map (fun x => (x.1, kv, x.2))

/-- avl.rs:627-695 `rm`: new tree, removed pair, `IsShorter`. -/
def rm (p : K → Ordering) : Tree K V → Option (Tree K V × Option (K × V) × Bool)
  | nil => some (nil, none, false)
  | node k v lh rh l r =>
    match p k with
    | .lt =>
      match rm p l with
      | none => none
      | some (l', kv, shorter) =>
        (afterRmLf k v lh rh l' r shorter).map (fun x => (x.1, kv, x.2))
    | .gt =>
      match rm p r with
      | none => none
      | some (r', kv, shorter) =>
        (afterRmRt k v lh rh l r' shorter).map (fun x => (x.1, kv, x.2))
    | .eq =>
      match l, r with
      | nil, nil => some (nil, some (k, v), true)
      | nil, r => some (r, some (k, v), true)
      | l, nil => some (l, some (k, v), true)
      | l, r =>
        match rmLeftmost r with
        | some (r', some (sk, sv), shorter) =>
          (afterRmRt sk sv lh rh l r' shorter).map (fun x => (x.1, some (k, v), x.2))
        | _ => none

/-- avl.rs:719-757 `join_rt`.  `left : Arc<Node>` is never empty, so `nil` has no
counterpart and is mapped to the panic value. -/
def joinRt (left : Tree K V) (k : K) (v : V) (right : Tree K V) : Option (Tree K V) :=
  match left with
  | nil => none
  | node lk lv lh rh l c =>
    if height (node lk lv lh rh l c) > height right + 1 then
      if height c ≤ height right + 1 then
        let t1 := mk k v c right
        let rh' := height t1
        if isBal (rh' - lh) then some (node lk lv lh rh' l t1)
        else
          match rotRt t1 with
          | none => none
          | some (t1', sh) =>
            (rotLf (node lk lv lh (if sh then rh' - 1 else rh') l t1')).map (·.1)
      else
        match joinRt c k v right with
        | none => none
        | some t1 =>
          let rh' := height t1
          if isBal (rh' - lh) then some (node lk lv lh rh' l t1)
          else (rotLf (node lk lv lh rh' l t1)).map (·.1)
    else none

/-- avl.rs:759-798 `join_lf`, including the `assert!` of line 785. -/
def joinLf (left : Tree K V) (k : K) (v : V) (right : Tree K V) : Option (Tree K V) :=
  match right with
  | nil => none
  | node rk rv lh rh c r =>
    if height (node rk rv lh rh c r) > height left + 1 then
      if height c ≤ height left + 1 then
        let t1 := mk k v left c
        let lh' := height t1
        if isBal (rh - lh') then some (node rk rv lh' rh t1 r)
        else
          match rotLf t1 with
          | none => none
          | some (t1', sh) =>
            match rotRt (node rk rv (if sh then lh' - 1 else lh') rh t1' r) with
            | none => none
            | some (t2, _) =>
              match bal? t2 with
              | none => none
              | some b => if isBal b then some t2 else none
      else
        match joinLf left k v c with
        | none => none
        | some t1 =>
          let lh' := height t1
          if isBal (rh - lh') then some (node rk rv lh' rh t1 r)
          else (rotRt (node rk rv lh' rh t1 r)).map (·.1)
    else none

/-- avl.rs:802-816 `join`. -/
def join (l : Tree K V) (k : K) (v : V) (r : Tree K V) : Option (Tree K V) :=
  let bal := height r - height l
  if bal < -1 then joinRt l k v r
  else if bal > 1 then joinLf l k v r
  else some (mk k v l r)

/-- avl.rs:818-833 `join2`. -/
def join2 (l : Tree K V) (kv : Option (K × V)) (r : Tree K V) : Option (Tree K V) :=
  match kv with
  | some (k, v) => join l k v r
  | none =>
    match l, r with
    | nil, r => some r
    | l, nil => some l
    | l, r =>
      match rmLeftmost r with
      | some (r', some (k, v), _) => join l k v r'
      | _ => none

/-- avl.rs:697-717 `retain`.  The closure is a state transformer on `σ` that may also
panic (`none`); the recursion is post-order exactly as in the code: left subtree, right
subtree, then the node itself.  Result: closure state, new tree, number kept. -/
def retain {σ : Type _} (f : σ → K → V → Option (σ × V × Bool)) :
    σ → Tree K V → Option (σ × Tree K V × Nat)
  | s, nil => some (s, nil, 0)
  | s, node k v _ _ l r =>
    match retain f s l with
    | none => none
    | some (s1, l', nl) =>
      match retain f s1 r with
      | none => none
      | some (s2, r', nr) =>
        match f s2 k v with
        | none => none
        | some (s3, v', true) => (join l' k v' r').map (fun t => (s3, t, nl + nr + 1))
        | some (s3, _, false) => (join2 l' none r').map (fun t => (s3, t, nl + nr))

/-- avl.rs:945-979 `split`. -/
def split (p : K → Ordering) : Tree K V → Option (Tree K V × Option (K × V) × Tree K V)
  | nil => some (nil, none, nil)
  | node k v _ _ l r =>
    match p k with
    | .eq => some (l, some (k, v), r)
    | .lt =>
      match split p l with
      | none => none
      | some (l1, kv, r1) => (join r1 k v r).map (fun t => (l1, kv, t))
    | .gt =>
      match split p r with
      | none => none
      | some (l1, kv, r1) => (join l k v l1).map (fun t => (t, kv, r1))

/-- avl.rs:856-884 `Merger::merge`; `keepL`/`keepR` are the policies
`on_only_left`/`on_only_right` (`true` = `Keep`), `dec` is `deconflict`. -/
def merge [Ord K] (keepL keepR : Bool) (dec : K × V → K × V → Option (K × V)) :
    Tree K V → Tree K V → Option (Tree K V)
  | nil, t2 => if keepR then some t2 else some nil
  | t1@(node ..), nil => if keepL then some t1 else some nil
  | node k v _ _ l r, t2@(node ..) =>
    match split (compare k) t2 with
    | none => none
    | some (lt, kv2, gt) =>
      match merge keepL keepR dec l lt with
      | none => none
      | some l' =>
        match merge keepL keepR dec r gt with
        | none => none
        | some r' =>
          let kv := match kv2 with
            | none => if keepL then some (k, v) else none
            | some e2 => dec (k, v) e2
          join2 l' kv r'

/-- avl.rs:887-899 `intersect`. -/
def intersect [Ord K] (t1 t2 : Tree K V) := merge false false (fun l _ => some l) t1 t2
/-- avl.rs:901-913 `diff`. -/
def diff [Ord K] (t1 t2 : Tree K V) := merge true false (fun _ _ => none) t1 t2
/-- avl.rs:916-928 `sym_diff`. -/
def symDiff [Ord K] (t1 t2 : Tree K V) := merge true true (fun _ _ => none) t1 t2
/-- avl.rs:930-942 `union`. -/
def union [Ord K] (t1 t2 : Tree K V) := merge true true (fun _ r => some r) t1 t2

/-- avl.rs:1087-1102 `get_key_value` (loop). -/
def getKeyValue (p : K → Ordering) : Tree K V → Option (K × V)
  | nil => none
  | node k v _ _ l r =>
    match p k with
    | .lt => getKeyValue p l
    | .eq => some (k, v)
    | .gt => getKeyValue p r

/-- avl.rs:1116-1133 `get_mut` followed by a write through the returned reference:
`g` is applied to the value in place; the flag tells whether a reference was returned. -/
def getMutWith (p : K → Ordering) (g : V → V) : Tree K V → Tree K V × Bool
  | nil => (nil, false)
  | node k v lh rh l r =>
    match p k with
    | .lt => let x := getMutWith p g l; (node k v lh rh x.1 r, x.2)
    | .eq => (node k (g v) lh rh l r, true)
    | .gt => let x := getMutWith p g r; (node k v lh rh l x.1, x.2)

/-- avl.rs:1051-1057 `first_key_value` (loop). -/
def first : Tree K V → Option (K × V)
  | nil => none
  | node k v _ _ nil _ => some (k, v)
  | node _ _ _ _ (node lk lv llh lrh ll lr) _ => first (node lk lv llh lrh ll lr)

/-- avl.rs:1337-1345 `last_key_value` (loop). -/
def last : Tree K V → Option (K × V)
  | nil => none
  | node k v _ _ _ nil => some (k, v)
  | node _ _ _ _ _ (node rk rv rlh rrh rl rr) => last (node rk rv rlh rrh rl rr)

/-- avl.rs:119-132 `Node::for_each`, closure as a state transformer. -/
def forEach {σ : Type _} (f : σ → K → V → σ) : σ → Tree K V → σ
  | s, nil => s
  | s, node k v _ _ l r => forEach f (f (forEach f s l) k v) r

/-- avl.rs:134-149 `Node::for_each_mut`. -/
def forEachMut {σ : Type _} (f : σ → K → V → σ × V) : σ → Tree K V → σ × Tree K V
  | s, nil => (s, nil)
  | s, node k v lh rh l r =>
    let x := forEachMut f s l
    let y := f x.1 k v
    let z := forEachMut f y.1 r
    (z.1, node k y.2 lh rh x.2 z.2)

/-- avl.rs:155-183 `Node::chk` / 328-336 `chk`: `none` is any `Err`; otherwise the number
of entries and the greatest key seen.  (`BadLen` is produced by the caller only.) -/
def chk [Ord K] : Tree K V → Option K → Option (Nat × Option K)
  | nil, g => some (0, g)
  | node k _ lh rh l r, g =>
    if g.any (fun g => compare g k != .lt) then none
    else if height l != lh || height r != rh then none
    else if !isBal (rh - lh) then none
    else
      match chk l g with
      | none => none
      | some (nl, g1) =>
        if g1.any (fun g => compare g k != .lt) then none
        else
          match chk r (some k) with
          | none => none
          | some (nr, g2) => some (nl + nr + 1, g2)

end Tree
end Verif.Avl
