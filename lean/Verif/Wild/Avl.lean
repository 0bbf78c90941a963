import Verif.Wild.Core
import Verif.Avl.Map
/-!
# `AvlMap` (src/avl.rs) under a lawless comparison

The functions of `Verif.Avl.Model` that compare keys, with a `Cmp` for the comparison.  What
does not compare (`afterInsLf`, `rmLeftmost`, `join`, …) is shared with that model.

Where two stored keys are compared, or the search key varies, the comparison is
`c : K → Cmp σ K`, with `c a b` for `a.cmp(&b)`.
-/
set_option linter.unusedVariables false
namespace Verif.Avl
open Verif.Wild
universe w
variable {σ : Type w} {K V : Type}

namespace Tree

/-- avl.rs:527-569 `ins`. -/
def insW (c : Cmp σ K) (k : K) (v : V) :
    Tree K V → σ → Option (Ends (Tree K V) (Tree K V × Option V × Bool) × σ)
  | nil, s => some (.done (mk k v nil nil, none, true), s)
  | node nk nv lh rh l r, s =>
    match c nk s with
    | (none, s) => some (.unwound (node nk nv lh rh l r), s)
    | (some .eq, s) => some (.done (node k v lh rh l r, some nv, false), s)
    | (some .lt, s) =>
      match insW c k v l s with
      | none => none
      | some (.unwound l', s) => some (.unwound (node nk nv lh rh l' r), s)
      | some (.done (l', old, taller), s) =>
        (afterInsLf nk nv lh rh l' r taller).map (fun x => (.done (x.1, old, x.2), s))
    | (some .gt, s) =>
      match insW c k v r s with
      | none => none
      | some (.unwound r', s) => some (.unwound (node nk nv lh rh l r'), s)
      | some (.done (r', old, taller), s) =>
        (afterInsRt nk nv lh rh l r' taller).map (fun x => (.done (x.1, old, x.2), s))

/-- The `Equal` arm of `rm` (avl.rs:660-694), which compares nothing. -/
def rmHere (k : K) (v : V) (lh rh : Int) (l r : Tree K V) :
    Option (Tree K V × Option (K × V) × Bool) :=
  match l, r with
  | nil, nil => some (nil, some (k, v), true)
  | nil, r => some (r, some (k, v), true)
  | l, nil => some (l, some (k, v), true)
  | l, r =>
    match rmLeftmost r with
    | some (r', some (sk, sv), shorter) =>
      (afterRmRt sk sv lh rh l r' shorter).map (fun x => (x.1, some (k, v), x.2))
    | _ => none

/-- avl.rs:627-695 `rm`. -/
def rmW (c : Cmp σ K) :
    Tree K V → σ → Option (Ends (Tree K V) (Tree K V × Option (K × V) × Bool) × σ)
  | nil, s => some (.done (nil, none, false), s)
  | node k v lh rh l r, s =>
    match c k s with
    | (none, s) => some (.unwound (node k v lh rh l r), s)
    | (some .lt, s) =>
      match rmW c l s with
      | none => none
      | some (.unwound l', s) => some (.unwound (node k v lh rh l' r), s)
      | some (.done (l', kv, shorter), s) =>
        (afterRmLf k v lh rh l' r shorter).map (fun x => (.done (x.1, kv, x.2), s))
    | (some .gt, s) =>
      match rmW c r s with
      | none => none
      | some (.unwound r', s) => some (.unwound (node k v lh rh l r'), s)
      | some (.done (r', kv, shorter), s) =>
        (afterRmRt k v lh rh l r' shorter).map (fun x => (.done (x.1, kv, x.2), s))
    | (some .eq, s) => (rmHere k v lh rh l r).map (fun x => (.done x, s))

/-- avl.rs:1087-1102 `get_key_value` (loop). -/
def getW (c : Cmp σ K) : Tree K V → σ → Ends Unit (Option (K × V)) × σ
  | nil, s => (.done none, s)
  | node k v _ _ l r, s =>
    match c k s with
    | (none, s) => (.unwound (), s)
    | (some .lt, s) => getW c l s
    | (some .eq, s) => (.done (some (k, v)), s)
    | (some .gt, s) => getW c r s

/-- avl.rs:1116-1133 `get_mut`, followed by a write `g` through the reference. -/
def getMutW (c : Cmp σ K) (g : V → V) :
    Tree K V → σ → Ends (Tree K V) (Tree K V × Bool) × σ
  | nil, s => (.done (nil, false), s)
  | node k v lh rh l r, s =>
    match c k s with
    | (none, s) => (.unwound (node k v lh rh l r), s)
    | (some .lt, s) =>
      match getMutW c g l s with
      | (.unwound l', s) => (.unwound (node k v lh rh l' r), s)
      | (.done (l', b), s) => (.done (node k v lh rh l' r, b), s)
    | (some .eq, s) => (.done (node k (g v) lh rh l r, true), s)
    | (some .gt, s) =>
      match getMutW c g r s with
      | (.unwound r', s) => (.unwound (node k v lh rh l r'), s)
      | (.done (r', b), s) => (.done (node k v lh rh l r', b), s)

/-- avl.rs:945-979 `split`.  It owns its argument, so unwinding leaves nothing of it: inner
`none`. -/
def splitW (c : Cmp σ K) :
    Tree K V → σ → Option (Option (Tree K V × Option (K × V) × Tree K V) × σ)
  | nil, s => some (some (nil, none, nil), s)
  | node k v _ _ l r, s =>
    match c k s with
    | (none, s) => some (none, s)
    | (some .eq, s) => some (some (l, some (k, v), r), s)
    | (some .lt, s) =>
      match splitW c l s with
      | none => none
      | some (none, s) => some (none, s)
      | some (some (l1, kv, r1), s) => (join r1 k v r).map (fun t => (some (l1, kv, t), s))
    | (some .gt, s) =>
      match splitW c r s with
      | none => none
      | some (none, s) => some (none, s)
      | some (some (l1, kv, r1), s) => (join l k v l1).map (fun t => (some (t, kv, r1), s))

/-- avl.rs:878-882: what becomes of the entry at the root of the left tree, given its match in
the right one. -/
def resolve (keepL : Bool) (dec : K × V → K × V → Option (K × V)) (e : K × V) :
    Option (K × V) → Option (K × V)
  | none => if keepL then some e else none
  | some e2 => dec e e2

/-- avl.rs:856-884 `Merger::merge`; it owns its arguments. -/
def mergeW (keepL keepR : Bool) (dec : K × V → K × V → Option (K × V)) (c : K → Cmp σ K) :
    Tree K V → Tree K V → σ → Option (Option (Tree K V) × σ)
  | nil, t2, s => some (some (if keepR then t2 else nil), s)
  | t1@(node ..), nil, s => some (some (if keepL then t1 else nil), s)
  | node k v _ _ l r, t2@(node ..), s =>
    match splitW (c k) t2 s with
    | none => none
    | some (none, s) => some (none, s)
    | some (some (lt, kv2, gt), s) =>
      match mergeW keepL keepR dec c l lt s with
      | none => none
      | some (none, s) => some (none, s)
      | some (some l', s) =>
        match mergeW keepL keepR dec c r gt s with
        | none => none
        | some (none, s) => some (none, s)
        | some (some r', s) =>
          (join2 l' (resolve keepL dec (k, v) kv2) r').map (fun t => (some t, s))

end Tree
open Tree

/-! ### The map -/

namespace AvlMap

/-- avl.rs:1087-1102 `get_key_value`. -/
def getW (m : AvlMap K V) (c : Cmp σ K) (s : σ) : Ends Unit (Option (K × V)) × σ := m.root.getW c s

/-- avl.rs:1116-1133 `get_mut`, followed by a write. -/
def getMutW (m : AvlMap K V) (c : Cmp σ K) (g : V → V) (s : σ) :
    Ends (AvlMap K V) (AvlMap K V × Bool) × σ :=
  match m.root.getMutW c g s with
  | (.unwound t, s) => (.unwound ⟨m.len, t⟩, s)
  | (.done (t, b), s) => (.done (⟨m.len, t⟩, b), s)

/-- avl.rs:1145-1153 `insert`. -/
def insertW (m : AvlMap K V) (c : Cmp σ K) (k : K) (v : V) (s : σ) :
    Option (Ends (AvlMap K V) (AvlMap K V × Option V) × σ) :=
  match insW c k v m.root s with
  | none => none
  | some (.unwound t, s) => some (.unwound ⟨m.len, t⟩, s)
  | some (.done (t, old, _), s) =>
    some (.done (⟨m.len + (if old.isNone then 1 else 0), t⟩, old), s)

/-- avl.rs:1732-1742 `remove_entry`. -/
def removeW (m : AvlMap K V) (c : Cmp σ K) (s : σ) :
    Option (Ends (AvlMap K V) (AvlMap K V × Option (K × V)) × σ) :=
  match rmW c m.root s with
  | none => none
  | some (.unwound t, s) => some (.unwound ⟨m.len, t⟩, s)
  | some (.done r, s) => (popWith m.len (some r)).map (fun x => (.done x, s))

/-- avl.rs:998-1006 `append`: the new `self` and the new `other`.  Both roots are taken (1003)
before the first comparison, and the lengths are written after the last. -/
def appendW (m other : AvlMap K V) (c : K → Cmp σ K) (s : σ) :
    Option (Ends (AvlMap K V × AvlMap K V) (AvlMap K V × AvlMap K V) × σ) :=
  match mergeW true true (fun _ r => some r) c m.root other.root s with
  | none => none
  | some (none, s) => some (.unwound (⟨m.len, .nil⟩, ⟨other.len, .nil⟩), s)
  | some (some t, s) => some (.done (⟨t.size, t⟩, ⟨0, .nil⟩), s)

/-- avl.rs:1376-1407, 1459-1491 `new_union`, `new_intersect`, `new_diff`, `new_sym_diff`. -/
def newMergeW (keepL keepR : Bool) (dec : K × V → K × V → Option (K × V)) (l r : AvlMap K V)
    (c : K → Cmp σ K) (s : σ) : Option (Ends Unit (AvlMap K V) × σ) :=
  match mergeW keepL keepR dec c l.root r.root s with
  | none => none
  | some (none, s) => some (.unwound (), s)
  | some (some t, s) => some (.done ⟨t.size, t⟩, s)

/-- avl.rs:1784-1806 `split_off`: `c` compares the argument, `ck` two keys of the map.  The
remaining `self` and the returned map.  The root is taken (1790) before the first comparison;
`self` is written (1795-1796) before the comparisons of `ins` (1799). -/
def splitOffW (m : AvlMap K V) (c : Cmp σ K) (ck : K → Cmp σ K) (s : σ) :
    Option (Ends (AvlMap K V) (AvlMap K V × AvlMap K V) × σ) :=
  match splitW c m.root s with
  | none => none
  | some (none, s) => some (.unwound ⟨m.len, .nil⟩, s)
  | some (some (lhs, kv, rhs), s) =>
    if m.len < lhs.size then none
    else
      match kv with
      | none => some (.done (⟨lhs.size, lhs⟩, ⟨m.len - lhs.size, rhs⟩), s)
      | some (k, v) =>
        match insW (ck k) k v rhs s with
        | none => none
        | some (.unwound _, s) => some (.unwound ⟨lhs.size, lhs⟩, s)
        | some (.done x, s) => some (.done (⟨lhs.size, lhs⟩, ⟨m.len - lhs.size, x.1⟩), s)

end AvlMap

/-! ### With a function of the key, these are the functions of the other model -/

namespace Tree

theorem tame_apply (p : K → Ordering) (k : K) (s : σ) : tame p k s = (some (p k), s) := rfl

theorem insW_tame [Ord K] (k : K) (v : V) : ∀ (t : Tree K V) (s : σ),
    insW (tame (compare k)) k v t s = (ins k v t).map (fun r => (.done r, s))
  | nil, s => rfl
  | node nk nv lh rh l r, s => by
    rw [insW, ins, tame_apply]
    have hl := insW_tame k v l s
    have hr := insW_tame k v r s
    cases compare k nk with
    | eq => rfl
    | lt =>
      simp only [hl]
      rcases ins k v l with _ | ⟨l', old, tl⟩
      · rfl
      · simp only [Option.map_some, Option.map_map]; rfl
    | gt =>
      simp only [hr]
      rcases ins k v r with _ | ⟨l', old, tl⟩
      · rfl
      · simp only [Option.map_some, Option.map_map]; rfl

theorem rm_node (p : K → Ordering) (k : K) (v : V) (lh rh : Int) (l r : Tree K V) :
    rm p (node k v lh rh l r) = match p k with
      | .lt =>
        match rm p l with
        | none => none
        | some (l', kv, shorter) =>
          (afterRmLf k v lh rh l' r shorter).map (fun x => (x.1, kv, x.2))
      | .gt =>
        match rm p r with
        | none => none
        | some (r', kv, shorter) =>
          (afterRmRt k v lh rh l r' shorter).map (fun x => (x.1, kv, x.2))
      | .eq => rmHere k v lh rh l r := by
  cases hp : p k with
  | lt => simp only [rm, hp]; rfl
  | gt => simp only [rm, hp]; rfl
  | eq => cases l <;> cases r <;> simp only [rm, hp, rmHere] <;> rfl

theorem rmW_tame (p : K → Ordering) : ∀ (t : Tree K V) (s : σ),
    rmW (tame p) t s = (rm p t).map (fun r => (.done r, s))
  | nil, s => rfl
  | node nk nv lh rh l r, s => by
    rw [rmW, rm_node, tame_apply]
    have hl := rmW_tame p l s
    have hr := rmW_tame p r s
    cases p nk with
    | eq => rfl
    | lt =>
      simp only [hl]
      rcases rm p l with _ | ⟨l', old, tl⟩
      · rfl
      · simp only [Option.map_some, Option.map_map]; rfl
    | gt =>
      simp only [hr]
      rcases rm p r with _ | ⟨l', old, tl⟩
      · rfl
      · simp only [Option.map_some, Option.map_map]; rfl

theorem getW_tame (p : K → Ordering) : ∀ (t : Tree K V) (s : σ),
    getW (tame p) t s = (.done (getKeyValue p t), s)
  | nil, s => rfl
  | node nk nv lh rh l r, s => by
    rw [getW, getKeyValue, tame_apply]
    have hl := getW_tame p l s
    have hr := getW_tame p r s
    cases p nk
    · simp only [hl]
    · rfl
    · simp only [hr]

theorem getMutW_tame (p : K → Ordering) (g : V → V) : ∀ (t : Tree K V) (s : σ),
    getMutW (tame p) g t s = (.done (getMutWith p g t), s)
  | nil, s => rfl
  | node nk nv lh rh l r, s => by
    rw [getMutW, getMutWith, tame_apply]
    have hl := getMutW_tame p g l s
    have hr := getMutW_tame p g r s
    cases p nk
    · simp only [hl]
    · rfl
    · simp only [hr]

theorem splitW_tame (p : K → Ordering) : ∀ (t : Tree K V) (s : σ),
    splitW (tame p) t s = (split p t).map (fun r => (some r, s))
  | nil, s => rfl
  | node nk nv lh rh l r, s => by
    rw [splitW, split, tame_apply]
    have hl := splitW_tame p l s
    have hr := splitW_tame p r s
    cases p nk with
    | eq => rfl
    | lt =>
      simp only [hl]
      rcases split p l with _ | ⟨l', old, tl⟩
      · rfl
      · simp only [Option.map_some, Option.map_map]; rfl
    | gt =>
      simp only [hr]
      rcases split p r with _ | ⟨l', old, tl⟩
      · rfl
      · simp only [Option.map_some, Option.map_map]; rfl

theorem mergeW_tame [Ord K] (kl kr : Bool) (dec : K × V → K × V → Option (K × V)) :
    ∀ (t1 t2 : Tree K V) (s : σ),
      mergeW kl kr dec (fun k => tame (compare k)) t1 t2 s =
        (merge kl kr dec t1 t2).map (fun r => (some r, s))
  | nil, t2, s => by cases kr <;> simp [mergeW, merge]
  | node .., nil, s => by cases kl <;> simp [mergeW, merge]
  | node k v lh rh l r, node k2 v2 lh2 rh2 l2 r2, s => by
    rw [mergeW, merge, splitW_tame]
    rcases split (compare k) (node k2 v2 lh2 rh2 l2 r2) with _ | ⟨lt, kv2, gt⟩
    · rfl
    · simp only [Option.map_some, mergeW_tame kl kr dec l lt s]
      rcases merge kl kr dec l lt with _ | l'
      · rfl
      · simp only [Option.map_some, mergeW_tame kl kr dec r gt s]
        rcases merge kl kr dec r gt with _ | r'
        · rfl
        · cases kv2 <;> simp only [Option.map_some, Option.map_map, resolve] <;> rfl

end Tree

namespace AvlMap

theorem getW_tame (m : AvlMap K V) (p : K → Ordering) (s : σ) :
    m.getW (tame p) s = (.done (m.getKeyValue p), s) := Tree.getW_tame p m.root s

theorem getMutW_tame (m : AvlMap K V) (p : K → Ordering) (g : V → V) (s : σ) :
    m.getMutW (tame p) g s = (.done (m.getMut p g), s) := by
  simp only [getMutW, Tree.getMutW_tame]; rfl

theorem insertW_tame [Ord K] (m : AvlMap K V) (k : K) (v : V) (s : σ) :
    m.insertW (tame (compare k)) k v s = (m.insert k v).map (fun r => (.done r, s)) := by
  simp only [insertW, insert, insW_tame]
  rcases ins k v m.root with _ | ⟨t, o, b⟩ <;> rfl

theorem removeW_tame (m : AvlMap K V) (p : K → Ordering) (s : σ) :
    m.removeW (tame p) s = (m.removeEntry p).map (fun r => (.done r, s)) := by
  simp only [removeW, removeEntry, rmW_tame]
  rcases rm p m.root with _ | ⟨t, o, b⟩ <;> rfl

theorem appendW_tame [Ord K] (m other : AvlMap K V) (s : σ) :
    m.appendW other (fun k => tame (compare k)) s = (m.append other).map (fun r => (.done r, s)) := by
  simp only [appendW, append, union, mergeW_tame]
  rcases merge true true (fun _ r => some r) m.root other.root with _ | t <;> rfl

theorem newMergeW_tame [Ord K] (kl kr : Bool) (dec : K × V → K × V → Option (K × V))
    (l r : AvlMap K V) (s : σ) :
    newMergeW kl kr dec l r (fun k => tame (compare k)) s =
      (merge kl kr dec l.root r.root).map (fun t => (.done ⟨t.size, t⟩, s)) := by
  simp only [newMergeW, mergeW_tame]
  rcases merge kl kr dec l.root r.root with _ | t <;> rfl

theorem splitOffW_tame [Ord K] (m : AvlMap K V) (p : K → Ordering) (s : σ) :
    m.splitOffW (tame p) (fun k => tame (compare k)) s =
      (m.splitOff p).map (fun r => (.done r, s)) := by
  simp only [splitOffW, splitOff, splitW_tame]
  rcases split p m.root with _ | ⟨lhs, _ | ⟨k, v⟩, rhs⟩
  · rfl
  · simp only [Option.map_some]; split <;> rfl
  · simp only [Option.map_some, insW_tame]
    split
    · rfl
    · rcases ins k v rhs with _ | x <;> rfl

end AvlMap
end Verif.Avl
