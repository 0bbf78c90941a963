import Verif.BTree.Shape
/-!
# Model of `InlineVec` and `Splitter` (src/btree/core.rs:49-263, 813-960)

An array `[MaybeUninit<T>; N]` is a list of `N` slots; `none` is an uninitialised slot.  The
outer `Option` of an operation is `none` for a failed `assert!` and for undefined behaviour:
`ptr::copy` outside the array, or reading a slot that is not initialised.
-/
set_option linter.unusedSectionVars false
namespace Verif.Fixed
open Verif.BTree Verif.BTree.Node
variable {α β : Type}

/-- core.rs:17 `MIN_OCCUPANCY`. -/
scoped notation "MIN" => (5 : Nat)
/-- core.rs:13-15, 18 `MAX_OCCUPANCY`: `2 * MIN_OCCUPANCY + 1`. -/
scoped notation "MAX" => (11 : Nat)
/-- core.rs:19 `MAX_KIDS`: `MAX_OCCUPANCY + 1`. -/
scoped notation "KIDS" => (12 : Nat)

/-- `[MaybeUninit<T>; N]`. -/
abbrev Slots (α : Type) := List (Option α)

/-- `std::ptr::copy(src.add(i), dst.add(j), n)`: `src` is read completely before `dst` is
written (memmove), so `src` and `dst` may be the same array. -/
def copy (src : Slots α) (i : Nat) (dst : Slots α) (j n : Nat) : Option (Slots α) :=
  if i + n ≤ src.length ∧ j + n ≤ dst.length then
    some (dst.take j ++ ((src.drop i).take n ++ dst.drop (j + n)))
  else none

/-- `slots[i].write(x)`; index out of bounds panics. -/
def write (s : Slots α) (i : Nat) (x : α) : Option (Slots α) :=
  if i < s.length then some (s.set i (some x)) else none

/-- `slots[i].assume_init_read()`. -/
def read (s : Slots α) (i : Nat) : Option α := s[i]?.join

/-- core.rs:51-55 `struct InlineVec`. -/
structure IVec (α β : Type) where
  keys : Slots α
  vals : Slots β
  len : Nat

namespace IVec

/-- core.rs:58-64 `new`: nothing is initialised. -/
def new (N : Nat) : IVec α β := ⟨List.replicate N none, List.replicate N none, 0⟩

/-- core.rs:99-112 `insert`. -/
def insert (N : Nat) (idx : Nat) (kv : α × β) (x : IVec α β) : Option (IVec α β) :=
  if idx ≤ x.len ∧ x.len < N then do
    let ks ← copy x.keys idx x.keys (idx + 1) (x.len - idx)
    let vs ← copy x.vals idx x.vals (idx + 1) (x.len - idx)
    let ks ← write ks idx kv.1
    let vs ← write vs idx kv.2
    pure ⟨ks, vs, x.len + 1⟩
  else none

/-- core.rs:148-153 `push`. -/
def push (N : Nat) (kv : α × β) (x : IVec α β) : Option (IVec α β) :=
  if x.len < N then do
    let ks ← write x.keys x.len kv.1
    let vs ← write x.vals x.len kv.2
    pure ⟨ks, vs, x.len + 1⟩
  else none

/-- core.rs:155-162 `pop`. -/
def pop (x : IVec α β) : Option ((α × β) × IVec α β) :=
  if 0 < x.len then do
    let k ← read x.keys (x.len - 1)
    let v ← read x.vals (x.len - 1)
    pure ((k, v), ⟨x.keys, x.vals, x.len - 1⟩)
  else none

/-- core.rs:165-189 `remove`. -/
def remove (idx : Nat) (x : IVec α β) : Option ((α × β) × IVec α β) :=
  if idx < x.len then do
    let k ← read x.keys idx
    let ks ← copy x.keys (idx + 1) x.keys idx (x.len - idx - 1)
    let v ← read x.vals idx
    let vs ← copy x.vals (idx + 1) x.vals idx (x.len - idx - 1)
    pure ((k, v), ⟨ks, vs, x.len - 1⟩)
  else none

/-- core.rs:611-623 (elements) and 625-639 (children), in `merge_kids`: append all of `y` to
`x` by `copy`, then `assert!` that the length is within the capacity.  (For the children the
values are `()`; the code does not copy them.) -/
def append (N : Nat) (x y : IVec α β) : Option (IVec α β) := do
  let ks ← copy y.keys 0 x.keys x.len y.len
  let vs ← copy y.vals 0 x.vals x.len y.len
  if x.len + y.len ≤ N then pure ⟨ks, vs, x.len + y.len⟩ else none

end IVec

/-- All slots, which must be initialised. -/
def readAll : Slots α → Option (List α)
  | [] => some []
  | none :: _ => none
  | some a :: s => (readAll s).map (a :: ·)

/-- The contents: `keys()` zipped with `vals()` (core.rs:115-120, 191-196). -/
def IVec.unload (x : IVec α β) : Option (List (α × β)) :=
  if x.len ≤ x.keys.length ∧ x.len ≤ x.vals.length then
    match readAll (x.keys.take x.len), readAll (x.vals.take x.len) with
    | some ks, some vs => some (ks.zip vs)
    | _, _ => none
  else none

/-- Slots holding `l`, the others uninitialised. -/
def fill (N : Nat) (l : List α) : Slots α := l.map some ++ List.replicate (N - l.length) none

/-- A vector holding `l`, the spare slots uninitialised. -/
def IVec.load (N : Nat) (l : List (α × β)) : Option (IVec α β) :=
  if l.length ≤ N then some ⟨fill N (l.map (·.1)), fill N (l.map (·.2)), l.length⟩ else none

/-! ### Representation -/

/-- `s` is an array of `N` slots the first of which hold `l`; the others hold anything. -/
def Holds (N : Nat) (s : Slots α) (l : List α) : Prop :=
  s.length = N ∧ ∃ t, s = l.map some ++ t

/-- `x` is a vector of capacity `N` with contents `l`. -/
structure IVec.Rep (N : Nat) (x : IVec α β) (l : List (α × β)) : Prop where
  len : x.len = l.length
  keys : Holds N x.keys (l.map (·.1))
  vals : Holds N x.vals (l.map (·.2))

theorem Holds.le {N : Nat} {s : Slots α} {l : List α} (h : Holds N s l) : l.length ≤ N := by
  obtain ⟨h1, t, rfl⟩ := h
  simp at h1; omega

theorem IVec.Rep.le {N : Nat} {x : IVec α β} {l : List (α × β)} (h : x.Rep N l) :
    l.length ≤ N := by simpa using h.keys.le

theorem holds_fill {N : Nat} {l : List α} (h : l.length ≤ N) : Holds N (fill N l) l :=
  ⟨by simp [fill]; omega, _, rfl⟩

theorem IVec.load_eq {N : Nat} {l : List (α × β)} (h : l.length ≤ N) :
    ∃ x, IVec.load N l = some x ∧ x.Rep N l :=
  ⟨_, if_pos h, rfl, holds_fill (by simpa using h), holds_fill (by simpa using h)⟩

theorem readAll_map (l : List α) : readAll (l.map some) = some l := by
  induction l with
  | nil => rfl
  | cons a l ih => simp [readAll, ih]

theorem zip_unzip (l : List (α × β)) : (l.map (·.1)).zip (l.map (·.2)) = l := by
  induction l with
  | nil => rfl
  | cons a l ih => simp [ih]

theorem IVec.unload_eq {N : Nat} {x : IVec α β} {l : List (α × β)} (h : x.Rep N l) :
    x.unload = some l := by
  obtain ⟨h1, ⟨h2, t, h3⟩, ⟨h4, t', h5⟩⟩ := h
  have e1 : x.keys.take x.len = (l.map (·.1)).map some := by
    rw [h3, h1]; exact List.take_left' (by simp)
  have e2 : x.vals.take x.len = (l.map (·.2)).map some := by
    rw [h5, h1]; exact List.take_left' (by simp)
  have l1 : x.len ≤ x.keys.length := by rw [h3, h1]; simp
  have l2 : x.len ≤ x.vals.length := by rw [h5, h1]; simp
  rw [IVec.unload, if_pos ⟨l1, l2⟩, e1, e2, readAll_map, readAll_map]
  dsimp only
  rw [zip_unzip]

/-! ### The operations on the arrays -/

theorem write_mid {s1 s2 : Slots α} {o : Option α} (x : α) :
    write (s1 ++ o :: s2) s1.length x = some (s1 ++ some x :: s2) := by
  simp [write]

theorem read_mid {N : Nat} {s : Slots α} {l1 l2 : List α} {x : α}
    (h : Holds N s (l1 ++ x :: l2)) : read s l1.length = some x := by
  obtain ⟨-, t, rfl⟩ := h
  have : (List.map some l1 ++ some x :: (List.map some l2 ++ t))[l1.length]? = some (some x) := by
    rw [List.getElem?_append_right (by simp)]; simp
  simp [read, this]

theorem insert_slots {N : Nat} {s : Slots α} {l1 l2 : List α} (x : α)
    (h : Holds N s (l1 ++ l2)) (hl : l1.length + l2.length < N) :
    ∃ s', (copy s l1.length s (l1.length + 1) l2.length).bind (fun s => write s l1.length x) =
      some s' ∧ Holds N s' (l1 ++ x :: l2) := by
  obtain ⟨h1, t, rfl⟩ := h
  cases t with
  | nil => simp at h1; omega
  | cons o t =>
    have hlen : (List.map some (l1 ++ l2) ++ o :: t).length = N := h1
    simp only [List.map_append, List.append_assoc, List.length_append, List.length_map,
      List.length_cons] at h1
    obtain ⟨d, r, hd⟩ : ∃ d r, List.map some l2 ++ o :: t = d :: r := by cases l2 <;> simp
    have e : copy (List.map some (l1 ++ l2) ++ o :: t) l1.length
        (List.map some (l1 ++ l2) ++ o :: t) (l1.length + 1) l2.length =
        some (List.map some l1 ++ d :: (List.map some l2 ++ t)) := by
      have e1 : (List.map some (l1 ++ l2) ++ o :: t).take (l1.length + 1) =
          List.map some l1 ++ [d] := by
        rw [List.map_append, List.append_assoc, hd]
        have := List.take_left' (l₁ := List.map some l1 ++ [d]) (l₂ := r) (i := l1.length + 1)
          (by simp)
        simpa using this
      have e2 : ((List.map some (l1 ++ l2) ++ o :: t).drop l1.length).take l2.length =
          List.map some l2 := by
        rw [List.map_append, List.append_assoc, List.drop_left' (by simp),
          List.take_left' (by simp)]
      have e3 : (List.map some (l1 ++ l2) ++ o :: t).drop (l1.length + 1 + l2.length) = t := by
        have := List.drop_left' (l₁ := List.map some (l1 ++ l2) ++ [o]) (l₂ := t)
          (i := l1.length + 1 + l2.length) (by simp; omega)
        simpa using this
      rw [copy, if_pos ⟨by rw [hlen]; omega, by rw [hlen]; omega⟩, e1, e2, e3]; simp
    refine ⟨List.map some l1 ++ some x :: (List.map some l2 ++ t), ?_, ?_, t, by simp⟩
    · rw [e]
      have := write_mid (s1 := List.map some l1) (s2 := List.map some l2 ++ t) (o := d) x
      simpa using this
    · simp; omega

theorem push_slots {N : Nat} {s : Slots α} {l : List α} (x : α)
    (h : Holds N s l) (hl : l.length < N) :
    ∃ s', write s l.length x = some s' ∧ Holds N s' (l ++ [x]) := by
  obtain ⟨h1, t, rfl⟩ := h
  cases t with
  | nil => simp at h1; omega
  | cons o t =>
    refine ⟨List.map some l ++ some x :: t, ?_, ?_, t, by simp⟩
    · have := write_mid (s1 := List.map some l) (s2 := t) (o := o) x
      simpa using this
    · simpa using h1

theorem pop_slots {N : Nat} {s : Slots α} {l : List α} {x : α} (h : Holds N s (l ++ [x])) :
    Holds N s l := by
  obtain ⟨h1, t, rfl⟩ := h
  exact ⟨h1, some x :: t, by simp⟩

theorem remove_slots {N : Nat} {s : Slots α} {l1 l2 : List α} {x : α}
    (h : Holds N s (l1 ++ x :: l2)) :
    ∃ s', copy s (l1.length + 1) s l1.length l2.length = some s' ∧ Holds N s' (l1 ++ l2) := by
  obtain ⟨h1, t, rfl⟩ := h
  have hlen := h1
  simp only [List.map_append, List.append_assoc, List.length_append, List.length_map,
    List.length_cons] at h1
  obtain ⟨t', ht'⟩ : ∃ t', t' = (List.map some (l1 ++ x :: l2) ++ t).drop (l1.length + l2.length) :=
    ⟨_, rfl⟩
  have hl' : t'.length = t.length + 1 := by rw [ht']; simp; omega
  refine ⟨List.map some l1 ++ (List.map some l2 ++ t'), ?_, ?_, t', by simp⟩
  · have e1 : (List.map some (l1 ++ x :: l2) ++ t).take l1.length = List.map some l1 := by
      rw [List.map_append, List.append_assoc, List.take_left' (by simp)]
    have e2 : ((List.map some (l1 ++ x :: l2) ++ t).drop (l1.length + 1)).take l2.length =
        List.map some l2 := by
      have : List.map some (l1 ++ x :: l2) ++ t =
          (List.map some l1 ++ [some x]) ++ (List.map some l2 ++ t) := by simp
      rw [this, List.drop_left' (by simp), List.take_left' (by simp)]
    rw [copy, if_pos ⟨by rw [hlen]; omega, by rw [hlen]; omega⟩, e1, e2, ht']
  · simp [hl']; omega

theorem append_slots {N : Nat} {s s' : Slots α} {l l' : List α}
    (h : Holds N s l) (h' : Holds N s' l') (hl : l.length + l'.length ≤ N) :
    ∃ r, copy s' 0 s l.length l'.length = some r ∧ Holds N r (l ++ l') := by
  obtain ⟨h1, t, rfl⟩ := h
  obtain ⟨h1', t', rfl⟩ := h'
  refine ⟨List.map some l ++ (List.map some l' ++ t.drop l'.length), ?_, ?_,
    t.drop l'.length, by simp⟩
  · have e1 : (List.map some l ++ t).take l.length = List.map some l := List.take_left' (by simp)
    have e2 : ((List.map some l' ++ t').drop 0).take l'.length = List.map some l' := by
      rw [List.drop_zero]; exact List.take_left' (by simp)
    have e3 : (List.map some l ++ t).drop (l.length + l'.length) = t.drop l'.length := by
      rw [← List.drop_drop, List.drop_left' (by simp)]
    rw [copy, if_pos ⟨by rw [h1']; omega, by rw [h1]; omega⟩, e1, e2, e3]
  · simp at h1 ⊢; omega

theorem append_slots_none {N : Nat} {s s' : Slots α} {l l' : List α}
    (h : Holds N s l) (hl : N < l.length + l'.length) :
    copy s' 0 s l.length l'.length = none := by
  rw [copy, if_neg]
  rintro ⟨-, h2⟩
  rw [h.1] at h2; omega

/-! ### The operations on vectors, for any contents of the spare slots -/

namespace IVec
variable {N : Nat} {x y : IVec α β} {l l1 l2 : List (α × β)}

theorem new_rep : (new N : IVec α β).Rep N [] :=
  ⟨rfl, ⟨by simp [new], _, rfl⟩, ⟨by simp [new], _, rfl⟩⟩

theorem insert_rep (kv : α × β) (h : x.Rep N (l1 ++ l2)) (hl : l1.length + l2.length < N) :
    ∃ x', insert N l1.length kv x = some x' ∧ x'.Rep N (l1 ++ kv :: l2) := by
  obtain ⟨h1, h2, h3⟩ := h
  obtain ⟨ks, e1, r1⟩ := insert_slots (l1 := l1.map (·.1)) (l2 := l2.map (·.1)) kv.1
    (by simpa using h2) (by simpa using hl)
  obtain ⟨vs, e2, r2⟩ := insert_slots (l1 := l1.map (·.2)) (l2 := l2.map (·.2)) kv.2
    (by simpa using h3) (by simpa using hl)
  simp only [List.length_map] at e1 e2
  obtain ⟨ks0, e1, e1'⟩ := Option.bind_eq_some_iff.1 e1
  obtain ⟨vs0, e2, e2'⟩ := Option.bind_eq_some_iff.1 e2
  have hx : x.len - l1.length = l2.length := by rw [h1]; simp
  refine ⟨⟨ks, vs, x.len + 1⟩, ?_, by simp [h1]; omega, by simpa using r1, by simpa using r2⟩
  have hc : l1.length ≤ x.len ∧ x.len < N := by rw [h1]; simp; omega
  rw [insert, if_pos hc, hx]
  simp [e1, e2, e1', e2']

theorem push_rep (kv : α × β) (h : x.Rep N l) (hl : l.length < N) :
    ∃ x', push N kv x = some x' ∧ x'.Rep N (l ++ [kv]) := by
  obtain ⟨h1, h2, h3⟩ := h
  obtain ⟨ks, e1, r1⟩ := push_slots kv.1 h2 (by simpa using hl)
  obtain ⟨vs, e2, r2⟩ := push_slots kv.2 h3 (by simpa using hl)
  simp only [List.length_map] at e1 e2
  refine ⟨⟨ks, vs, x.len + 1⟩, ?_, by simp [h1], by simpa using r1, by simpa using r2⟩
  rw [push, if_pos (by omega), h1]
  simp [e1, e2]

theorem pop_rep {kv : α × β} (h : x.Rep N (l ++ [kv])) :
    ∃ x', pop x = some (kv, x') ∧ x'.Rep N l := by
  obtain ⟨h1, h2, h3⟩ := h
  have e1 := read_mid (l1 := l.map (·.1)) (l2 := []) (x := kv.1) (by simpa using h2)
  have e2 := read_mid (l1 := l.map (·.2)) (l2 := []) (x := kv.2) (by simpa using h3)
  simp only [List.length_map] at e1 e2
  have hx : x.len - 1 = l.length := by rw [h1]; simp
  refine ⟨⟨x.keys, x.vals, x.len - 1⟩, ?_, hx, pop_slots (x := kv.1) (by simpa using h2),
    pop_slots (x := kv.2) (by simpa using h3)⟩
  rw [pop, if_pos (by rw [h1]; simp), hx]
  simp [e1, e2]

theorem remove_rep {kv : α × β} (h : x.Rep N (l1 ++ kv :: l2)) :
    ∃ x', remove l1.length x = some (kv, x') ∧ x'.Rep N (l1 ++ l2) := by
  obtain ⟨h1, h2, h3⟩ := h
  have h2' : Holds N x.keys (l1.map (·.1) ++ kv.1 :: l2.map (·.1)) := by simpa using h2
  have h3' : Holds N x.vals (l1.map (·.2) ++ kv.2 :: l2.map (·.2)) := by simpa using h3
  have e1 := read_mid h2'
  have e2 := read_mid h3'
  obtain ⟨ks, f1, r1⟩ := remove_slots h2'
  obtain ⟨vs, f2, r2⟩ := remove_slots h3'
  simp only [List.length_map] at e1 e2 f1 f2
  have hx : x.len - l1.length - 1 = l2.length := by rw [h1]; simp
  refine ⟨⟨ks, vs, x.len - 1⟩, ?_, by simp [h1], by simpa using r1,
    by simpa using r2⟩
  rw [remove, if_pos (by rw [h1]; simp), hx]
  simp [e1, e2, f1, f2]

theorem append_rep {l' : List (α × β)} (h : x.Rep N l) (h' : y.Rep N l')
    (hl : l.length + l'.length ≤ N) :
    ∃ z, append N x y = some z ∧ z.Rep N (l ++ l') := by
  obtain ⟨ks, e1, r1⟩ := append_slots h.keys h'.keys (by simpa using hl)
  obtain ⟨vs, e2, r2⟩ := append_slots h.vals h'.vals (by simpa using hl)
  simp only [List.length_map] at e1 e2
  refine ⟨⟨ks, vs, x.len + y.len⟩, ?_, by simp [h.len, h'.len], by simpa using r1, by simpa using r2⟩
  simp [append, h.len, h'.len, e1, e2, hl]

end IVec

/-! ### The operations on contents -/

/-- `IVec::insert` on a vector holding `l`. -/
def ivInsert (N : Nat) (idx : Nat) (kv : α × β) (l : List (α × β)) : Option (List (α × β)) := do
  let x ← IVec.load N l
  let x ← x.insert N idx kv
  x.unload

/-- `IVec::push` on a vector holding `l`. -/
def ivPush (N : Nat) (kv : α × β) (l : List (α × β)) : Option (List (α × β)) := do
  let x ← IVec.load N l
  let x ← x.push N kv
  x.unload

/-- `IVec::pop` on a vector holding `l`. -/
def ivPop (N : Nat) (l : List (α × β)) : Option ((α × β) × List (α × β)) := do
  let x ← IVec.load N l
  let r ← x.pop
  let l ← r.2.unload
  pure (r.1, l)

/-- `IVec::remove` on a vector holding `l`. -/
def ivRemove (N : Nat) (idx : Nat) (l : List (α × β)) : Option ((α × β) × List (α × β)) := do
  let x ← IVec.load N l
  let r ← x.remove idx
  let l ← r.2.unload
  pure (r.1, l)

/-- The copying of `merge_kids` on vectors holding `l` and `l'`. -/
def ivAppend (N : Nat) (l l' : List (α × β)) : Option (List (α × β)) := do
  let x ← IVec.load N l
  let y ← IVec.load N l'
  let x ← x.append N y
  x.unload

section
variable {N : Nat} {l l1 l2 : List (α × β)}

theorem ivInsert_eq (kv : α × β) (hl : l1.length + l2.length < N) :
    ivInsert N l1.length kv (l1 ++ l2) = some (l1 ++ kv :: l2) := by
  obtain ⟨x, e, r⟩ := IVec.load_eq (l := l1 ++ l2) (N := N) (by simp; omega)
  obtain ⟨x', e', r'⟩ := IVec.insert_rep kv r hl
  simp [ivInsert, e, e', IVec.unload_eq r']

theorem ivPush_eq (kv : α × β) (hl : l.length < N) : ivPush N kv l = some (l ++ [kv]) := by
  obtain ⟨x, e, r⟩ := IVec.load_eq (l := l) (N := N) (by omega)
  obtain ⟨x', e', r'⟩ := IVec.push_rep kv r hl
  simp [ivPush, e, e', IVec.unload_eq r']

theorem ivPop_eq {kv : α × β} (hl : l.length < N) : ivPop N (l ++ [kv]) = some (kv, l) := by
  obtain ⟨x, e, r⟩ := IVec.load_eq (l := l ++ [kv]) (N := N) (by simp; omega)
  obtain ⟨x', e', r'⟩ := IVec.pop_rep r
  simp [ivPop, e, e', IVec.unload_eq r']

theorem ivRemove_eq {kv : α × β} (hl : l1.length + l2.length < N) :
    ivRemove N l1.length (l1 ++ kv :: l2) = some (kv, l1 ++ l2) := by
  obtain ⟨x, e, r⟩ := IVec.load_eq (l := l1 ++ kv :: l2) (N := N) (by simp; omega)
  obtain ⟨x', e', r'⟩ := IVec.remove_rep r
  simp [ivRemove, e, e', IVec.unload_eq r']

theorem ivAppend_eq {l' : List (α × β)} (hl : l.length + l'.length ≤ N) :
    ivAppend N l l' = some (l ++ l') := by
  obtain ⟨x, e, r⟩ := IVec.load_eq (l := l) (N := N) (by omega)
  obtain ⟨y, e', r'⟩ := IVec.load_eq (l := l') (N := N) (by omega)
  obtain ⟨z, e'', r''⟩ := IVec.append_rep r r' hl
  simp [ivAppend, e, e', e'', IVec.unload_eq r'']
end

/-! ### Children: `InlineVec<NodePtr, (), MAX_KIDS>` (core.rs:272) -/

/-- A list of children as the contents of a `Kids` vector. -/
def unit (l : List α) : List (α × Unit) := l.map (fun a => (a, ()))
def ununit (l : List (α × Unit)) : List α := l.map (·.1)

@[simp] theorem ununit_unit (l : List α) : ununit (unit l) = l := by
  simp only [ununit, unit, List.map_map]; exact List.map_id _
@[simp] theorem unit_length (l : List α) : (unit l).length = l.length := by simp [unit]
@[simp] theorem unit_append (l l' : List α) : unit (l ++ l') = unit l ++ unit l' := by simp [unit]
@[simp] theorem unit_cons (a : α) (l : List α) : unit (a :: l) = (a, ()) :: unit l := by simp [unit]
@[simp] theorem unit_nil : unit ([] : List α) = [] := rfl

def kInsert (idx : Nat) (c : α) (l : List α) : Option (List α) :=
  (ivInsert KIDS idx (c, ()) (unit l)).map ununit
def kPush (c : α) (l : List α) : Option (List α) := (ivPush KIDS (c, ()) (unit l)).map ununit
def kPop (l : List α) : Option (α × List α) :=
  (ivPop KIDS (unit l)).map (fun r => (r.1.1, ununit r.2))
def kRemove (idx : Nat) (l : List α) : Option (α × List α) :=
  (ivRemove KIDS idx (unit l)).map (fun r => (r.1.1, ununit r.2))
def kAppend (l l' : List α) : Option (List α) := (ivAppend KIDS (unit l) (unit l')).map ununit

section
variable {l l1 l2 : List α} {c : α}

theorem kInsert_eq (hl : l1.length + l2.length < KIDS) :
    kInsert l1.length c (l1 ++ l2) = some (l1 ++ c :: l2) := by
  have := ivInsert_eq (l1 := unit l1) (l2 := unit l2) (N := KIDS) (c, ()) (by simpa using hl)
  simp only [unit_length] at this
  rw [kInsert, unit_append, this, Option.map_some, ← unit_cons, ← unit_append, ununit_unit]

theorem kPush_eq (hl : l.length < KIDS) : kPush c l = some (l ++ [c]) := by
  have := ivPush_eq (l := unit l) (N := KIDS) (c, ()) (by simpa using hl)
  rw [kPush, this, Option.map_some, ← unit_nil, ← unit_cons, ← unit_append, ununit_unit]

theorem kPop_eq (hl : l.length < KIDS) : kPop (l ++ [c]) = some (c, l) := by
  have := ivPop_eq (l := unit l) (N := KIDS) (kv := (c, ())) (by simpa using hl)
  rw [kPop, unit_append, unit_cons, unit_nil, this]; simp

theorem kRemove_eq (hl : l1.length + l2.length < KIDS) :
    kRemove l1.length (l1 ++ c :: l2) = some (c, l1 ++ l2) := by
  have := ivRemove_eq (l1 := unit l1) (l2 := unit l2) (N := KIDS) (kv := (c, ()))
    (by simpa using hl)
  simp only [unit_length] at this
  rw [kRemove, unit_append, unit_cons, this, Option.map_some, ← unit_append, ununit_unit]

theorem kAppend_eq {l' : List α} (hl : l.length + l'.length ≤ KIDS) :
    kAppend l l' = some (l ++ l') := by
  have := ivAppend_eq (l := unit l) (l' := unit l') (N := KIDS) (by simpa using hl)
  rw [kAppend, this, Option.map_some, ← unit_append, ununit_unit]
end

/-! ### `Splitter` -/

variable {γ : Type}

/-- core.rs:813-829 `struct Splitter`: the arrays behind the pointers and the indices.  `al`
tells that the destination pointers were set to the source arrays (core.rs:493-495); `kids`
tells whether the nodes have children. -/
structure Splitter (α β γ : Type) where
  srcK : Slots α
  srcV : Slots β
  srcN : Slots γ
  dstK : Slots α
  dstV : Slots β
  dstN : Slots γ
  kids : Bool
  al : Bool
  srcIdx : Nat
  dstIdx : Nat
  srcKidsIdx : Nat
  dstKidsIdx : Nat

namespace Splitter

/-- Store into the destination arrays. -/
def setDst (s : Splitter α β γ) (k : Slots α) (v : Slots β) (n : Slots γ) : Splitter α β γ :=
  if s.al then { s with srcK := k, srcV := v, srcN := n }
  else { s with dstK := k, dstV := v, dstN := n }

def toK (s : Splitter α β γ) : Slots α := if s.al then s.srcK else s.dstK
def toV (s : Splitter α β γ) : Slots β := if s.al then s.srcV else s.dstV
def toN (s : Splitter α β γ) : Slots γ := if s.al then s.srcN else s.dstN

/-- core.rs:832-850 `new`. -/
def new (es : IVec α β) (ks : Slots γ) (kids : Bool) : Splitter α β γ where
  srcK := es.keys
  srcV := es.vals
  srcN := ks
  dstK := List.replicate MAX none
  dstV := List.replicate MAX none
  dstN := List.replicate KIDS none
  kids := kids
  al := false
  srcIdx := 0
  dstIdx := 0
  srcKidsIdx := 0
  dstKidsIdx := 0

/-- core.rs:852-887 `xfer`. -/
def xfer (cntE cntK : Nat) (s : Splitter α β γ) : Option (Splitter α β γ) :=
  if s.srcIdx + cntE ≤ MAX ∧ s.dstIdx + cntE ≤ MAX ∧ s.srcKidsIdx + cntK ≤ KIDS ∧
      s.dstKidsIdx + cntK ≤ KIDS then do
    let k ← copy s.srcK s.srcIdx s.toK s.dstIdx cntE
    let v ← copy s.srcV s.srcIdx s.toV s.dstIdx cntE
    let n ← if s.kids then copy s.srcN s.srcKidsIdx s.toN s.dstKidsIdx cntK else some s.toN
    let s' := s.setDst k v n
    pure { s' with
      srcIdx := s.srcIdx + cntE, dstIdx := s.dstIdx + cntE,
      srcKidsIdx := s.srcKidsIdx + cntK, dstKidsIdx := s.dstKidsIdx + cntK }
  else none

/-- core.rs:904-915 `push_back_kid_dst`. -/
def pushKid (kid : Option γ) (s : Splitter α β γ) : Option (Splitter α β γ) :=
  if s.dstIdx < MAX then do
    let n ← match kid with
      | none => some s.toN
      | some c => if s.kids then write s.toN s.dstKidsIdx c else none
    let s' := s.setDst s.toK s.toV n
    pure { s' with dstKidsIdx := s.dstKidsIdx + 1 }
  else none

/-- core.rs:889-902 `push_back_dst`. -/
def push (kv : α × β) (kid : Option γ) (s : Splitter α β γ) : Option (Splitter α β γ) :=
  if s.dstIdx < MAX then do
    let k ← write s.toK s.dstIdx kv.1
    let v ← write s.toV s.dstIdx kv.2
    let s' := s.setDst k v s.toN
    pushKid kid { s' with dstIdx := s.dstIdx + 1 }
  else none

/-- core.rs:917-927 `pop_front_src`. -/
def popSrc (s : Splitter α β γ) : Option ((α × β) × Splitter α β γ) :=
  if s.srcIdx < MAX then do
    let k ← read s.srcK s.srcIdx
    let v ← read s.srcV s.srcIdx
    pure ((k, v), { s with srcIdx := s.srcIdx + 1 })
  else none

/-- core.rs:929-955 `finalize_src`. -/
def finalize (s : Splitter α β γ) : Option (Splitter α β γ) := do
  let k ← copy s.srcK s.srcIdx s.srcK 0 (MAX - s.srcIdx)
  let v ← copy s.srcV s.srcIdx s.srcV 0 (MAX - s.srcIdx)
  let n ← if s.kids then copy s.srcN s.srcKidsIdx s.srcN 0 (KIDS - s.srcKidsIdx) else some s.srcN
  pure { s with srcK := k, srcV := v, srcN := n, srcIdx := MAX, srcKidsIdx := KIDS }

end Splitter

/-- core.rs:471-502, the three cases of `ins_split`: the dividing element, `lhs_len`, and the
splitter at the end. -/
def splitLoop (idx : Nat) (kid : Option γ) (kv : α × β) (s : Splitter α β γ) :
    Option ((α × β) × Nat × Splitter α β γ) :=
  if idx < MIN then do
    let s ← s.xfer idx idx
    let s ← s.push kv kid
    let s ← s.xfer (MIN - idx - 1) (MIN - idx)
    let (div, s) ← s.popSrc
    let len := s.dstIdx
    let s ← s.finalize
    pure (div, len, s)
  else if idx = MIN ∨ idx = MIN + 1 then do
    let s ← s.xfer idx idx
    let s ← s.pushKid kid
    let len := s.dstIdx
    let s ← s.finalize
    pure (kv, len, s)
  else do
    let s ← s.xfer (MIN + 1) (MIN + 2)
    let (div, s) ← s.popSrc
    let len := s.dstIdx
    let s := { s with al := true, dstIdx := 0, dstKidsIdx := 0 }
    let s ← s.xfer (idx - MIN - 2) (idx - MIN - 2)
    let s ← s.push kv kid
    let s ← s.xfer (MAX - idx) (KIDS - idx)
    pure (div, len, s)

/-- core.rs:450-516 `ins_split`, on the contents of a full node: the dividing element, the
new left node and the node itself.  The lengths are set as in 504-513. -/
def insSplit (idx : Nat) (kid : Option γ) (kv : α × β) (es : List (α × β)) (ks : List γ) :
    Option ((α × β) × (List (α × β) × List γ) × (List (α × β) × List γ)) :=
  if es.length = MAX ∧ (!ks.isEmpty) = kid.isSome then do
    let x ← IVec.load MAX es
    let (div, len, s) ← splitLoop idx kid kv (Splitter.new x (fill KIDS ks) (!ks.isEmpty))
    let les ← IVec.unload ⟨s.dstK, s.dstV, len⟩
    let res ← IVec.unload ⟨s.srcK, s.srcV, MAX - len⟩
    if ks.isEmpty then pure (div, (les, []), (res, []))
    else do
      let lks ← readAll (s.dstN.take (len + 1))
      let rks ← readAll (s.srcN.take (MAX - len + 1))
      pure (div, (les, lks), (res, rks))
  else none

/-- Where `ins_split` divides: at 5 or at 6. -/
def splitAt (idx : Nat) : Nat := if idx ≤ MIN then MIN else MIN + 1

theorem list11 {l : List α} (h : l.length = MAX) :
    ∃ a0 a1 a2 a3 a4 a5 a6 a7 a8 a9 a10, l = [a0, a1, a2, a3, a4, a5, a6, a7, a8, a9, a10] := by
  match l, h with
  | [a0, a1, a2, a3, a4, a5, a6, a7, a8, a9, a10], _ => exact ⟨_, _, _, _, _, _, _, _, _, _, _, rfl⟩

theorem list12 {l : List α} (h : l.length = KIDS) :
    ∃ a0 a1 a2 a3 a4 a5 a6 a7 a8 a9 a10 a11,
      l = [a0, a1, a2, a3, a4, a5, a6, a7, a8, a9, a10, a11] := by
  match l, h with
  | [a0, a1, a2, a3, a4, a5, a6, a7, a8, a9, a10, a11], _ =>
    exact ⟨_, _, _, _, _, _, _, _, _, _, _, _, rfl⟩

/-- In a leaf, `ins_split` divides the elements with `kv` inserted. -/
theorem insSplit_leaf {es : List (α × β)} {idx : Nat} (kv : α × β) (hl : es.length = MAX)
    (hi : idx ≤ MAX) :
    ∃ div, (es.take idx ++ kv :: es.drop idx)[splitAt idx]? = some div ∧
      insSplit (γ := γ) idx none kv es [] =
        some (div, ((es.take idx ++ kv :: es.drop idx).take (splitAt idx), []),
          ((es.take idx ++ kv :: es.drop idx).drop (splitAt idx + 1), [])) := by
  obtain ⟨a0, a1, a2, a3, a4, a5, a6, a7, a8, a9, a10, rfl⟩ := list11 hl
  match idx, hi with
  | 0, _ => exact ⟨_, rfl, rfl⟩
  | 1, _ => exact ⟨_, rfl, rfl⟩
  | 2, _ => exact ⟨_, rfl, rfl⟩
  | 3, _ => exact ⟨_, rfl, rfl⟩
  | 4, _ => exact ⟨_, rfl, rfl⟩
  | 5, _ => exact ⟨_, rfl, rfl⟩
  | 6, _ => exact ⟨_, rfl, rfl⟩
  | 7, _ => exact ⟨_, rfl, rfl⟩
  | 8, _ => exact ⟨_, rfl, rfl⟩
  | 9, _ => exact ⟨_, rfl, rfl⟩
  | 10, _ => exact ⟨_, rfl, rfl⟩
  | 11, _ => exact ⟨_, rfl, rfl⟩

/-- In a branch, the children likewise. -/
theorem insSplit_branch {es : List (α × β)} {ks : List γ} {idx : Nat} (kv : α × β) (kid : γ)
    (hl : es.length = MAX) (hk : ks.length = KIDS) (hi : idx ≤ MAX) :
    ∃ div, (es.take idx ++ kv :: es.drop idx)[splitAt idx]? = some div ∧
      insSplit idx (some kid) kv es ks =
        some (div, ((es.take idx ++ kv :: es.drop idx).take (splitAt idx),
            (ks.take idx ++ kid :: ks.drop idx).take (splitAt idx + 1)),
          ((es.take idx ++ kv :: es.drop idx).drop (splitAt idx + 1),
            (ks.take idx ++ kid :: ks.drop idx).drop (splitAt idx + 1))) := by
  obtain ⟨a0, a1, a2, a3, a4, a5, a6, a7, a8, a9, a10, rfl⟩ := list11 hl
  obtain ⟨c0, c1, c2, c3, c4, c5, c6, c7, c8, c9, c10, c11, rfl⟩ := list12 hk
  match idx, hi with
  | 0, _ => exact ⟨_, rfl, rfl⟩
  | 1, _ => exact ⟨_, rfl, rfl⟩
  | 2, _ => exact ⟨_, rfl, rfl⟩
  | 3, _ => exact ⟨_, rfl, rfl⟩
  | 4, _ => exact ⟨_, rfl, rfl⟩
  | 5, _ => exact ⟨_, rfl, rfl⟩
  | 6, _ => exact ⟨_, rfl, rfl⟩
  | 7, _ => exact ⟨_, rfl, rfl⟩
  | 8, _ => exact ⟨_, rfl, rfl⟩
  | 9, _ => exact ⟨_, rfl, rfl⟩
  | 10, _ => exact ⟨_, rfl, rfl⟩
  | 11, _ => exact ⟨_, rfl, rfl⟩

end Verif.Fixed
