import Verif.Avl.Model
import Verif.Spec.Lemmas
/-!
# Model of the AVL iterators (avl.rs:1914-2256) and range construction (1534-1697)

`NormIterNode`, `IterMutNode` and `IntoIterNode` differ only in how a node is held
(by reference, by unique reference, owned or shared); `destruct` returns the same
(left, item, right) triple in all three, so one model serves all of them.  `keys`,
`values`, `into_keys`, … project the items.
-/
namespace Verif.Avl
open Tree
variable {K V : Type _}

/-- avl.rs:1915-1918 `IterAction`. -/
inductive Act (K V : Type _) where
  | desc (t : Tree K V)
  | ret (e : K × V)

/-- Push `Descend(n)` if the child exists (avl.rs:1950-1952 and the like); works on
either end of the deque, the list being written from that end. -/
def pushDesc (t : Tree K V) (w : List (Act K V)) : List (Act K V) :=
  match t with
  | .nil => w
  | t => .desc t :: w

/-- Termination measure of the worklist loops. -/
def wsize : List (Act K V) → Nat
  | [] => 0
  | .desc t :: w => 3 * size t + 1 + wsize w
  | .ret _ :: w => 1 + wsize w

theorem wsize_pushDesc (t : Tree K V) (w) : wsize (pushDesc t w) ≤ 3 * size t + 1 + wsize w := by
  cases t <;> simp [pushDesc, wsize]

/-- avl.rs:1937-1963 `InnerIter::next` on the worklist (front first).  `None` = exhausted. -/
def nextW : List (Act K V) → Option ((K × V) × List (Act K V))
  | [] => none
  | .ret x :: w => some (x, w)
  | .desc .nil :: w => nextW w -- `Descend` always holds a node; no counterpart
  | .desc (.node k v _ _ l r) :: w => nextW (pushDesc l (.ret (k, v) :: pushDesc r w))
termination_by w => wsize w
decreasing_by
  · simp [wsize]
  · have h1 := wsize_pushDesc r w
    have h2 := wsize_pushDesc l (.ret (k, v) :: pushDesc r w)
    simp only [wsize, size] at *; omega

/-- avl.rs:1967-1993 `InnerIter::next_back`, the worklist written back first. -/
def nextBackRev : List (Act K V) → Option ((K × V) × List (Act K V))
  | [] => none
  | .ret x :: w => some (x, w)
  | .desc .nil :: w => nextBackRev w -- no counterpart
  | .desc (.node k v _ _ l r) :: w => nextBackRev (pushDesc r (.ret (k, v) :: pushDesc l w))
termination_by w => wsize w
decreasing_by
  · simp [wsize]
  · have h1 := wsize_pushDesc l w
    have h2 := wsize_pushDesc r (.ret (k, v) :: pushDesc l w)
    simp only [wsize, size] at *; omega

/-- `next_back` on the deque written front first. -/
def nextBackW (w : List (Act K V)) : Option ((K × V) × List (Act K V)) :=
  (nextBackRev w.reverse).map (fun x => (x.1, x.2.reverse))

/-- avl.rs:1929-1932 `InnerIter`. -/
structure Iter (K V : Type _) where
  work : List (Act K V)
  len : Nat

/-- One call of `next` (`front = true`) or `next_back`; the outer `none` is the panic of
`self.len -= 1` at zero (avl.rs:1943, 1973). -/
def Iter.step (front : Bool) (it : Iter K V) : Option (Option (K × V) × Iter K V) :=
  match (if front then nextW it.work else nextBackW it.work) with
  | none => some (none, { it with work := [] })
  | some (x, w) => if it.len = 0 then none else some (some x, ⟨w, it.len - 1⟩)

/-- The results of a schedule of calls, each with `len()` reported afterwards
(avl.rs:1996-2000; for `Range`, the upper bound of `size_hint`, 2102-2104). -/
def Iter.run : List Bool → Iter K V → Option (List (Option (K × V) × Nat))
  | [], _ => some []
  | d :: ds, it =>
    match it.step d with
    | none => none
    | some (x, it') => (Iter.run ds it').map (fun r => (x, it'.len) :: r)

/-- avl.rs:1243-1255 `iter`, 1281-1298 `iter_mut`, 2240-2255 `into_iter`, 1166-1218. -/
def iterOf (len : Nat) (root : Tree K V) : Iter K V := ⟨pushDesc root [], len⟩

/-- `Excluded(k) | Included(k) if k <= n.key` (avl.rs:1565, 1601). -/
def ubLe (ub : Bnd K) (k : K) : Bool :=
  match ub with
  | .unbounded => false
  | .included p => p k != .gt
  | .excluded p => p k != .gt

/-- `Excluded(k) | Included(k) if k >= n.key` (avl.rs:1576, 1590). -/
def lbGe (lb : Bnd K) (k : K) : Bool :=
  match lb with
  | .unbounded => false
  | .included p => p k != .lt
  | .excluded p => p k != .lt

/-- avl.rs:1563-1579, the body of the left-pruning loop on a popped node.  `RangeBounds::contains` is
the conjunction of the two bound checks. -/
def pruneStepL (lb ub : Bnd K) (k : K) (v : V) (l r : Tree K V) (w : List (Act K V)) :
    List (Act K V) :=
  let w1 := if ubLe ub k then w else pushDesc r w
  let w2 := if lb.okLo k && ub.okHi k then .ret (k, v) :: w1 else w1
  if lbGe lb k then w2 else pushDesc l w2

theorem wsize_pruneStepL (lb ub : Bnd K) (k : K) (v : V) (l r : Tree K V) (w : List (Act K V)) :
    wsize (pruneStepL lb ub k v l r w) ≤ 3 * size l + 3 * size r + 3 + wsize w := by
  have h1 := wsize_pushDesc r w
  unfold pruneStepL
  dsimp only
  split
  · split
    · simp only [wsize]; split <;> omega
    · split <;> omega
  · refine Nat.le_trans (wsize_pushDesc _ _) ?_
    split
    · simp only [wsize]; split <;> omega
    · split <;> omega

/-- avl.rs:1558-1580: prune the left side (front first). -/
def pruneL (lb ub : Bnd K) : List (Act K V) → List (Act K V)
  | .desc (.node k v _ _ l r) :: w => pruneL lb ub (pruneStepL lb ub k v l r w)
  | .desc .nil :: w => pruneL lb ub w -- no counterpart
  | w => w
termination_by w => wsize w
decreasing_by
  · have := wsize_pruneStepL lb ub k v l r w
    simp only [wsize, size]; omega
  · simp [wsize]

/-- avl.rs:1588-1604, the body of the right-pruning loop. -/
def pruneStepR (lb ub : Bnd K) (k : K) (v : V) (l r : Tree K V) (w : List (Act K V)) :
    List (Act K V) :=
  let w1 := if lbGe lb k then w else pushDesc l w
  let w2 := if lb.okLo k && ub.okHi k then .ret (k, v) :: w1 else w1
  if ubLe ub k then w2 else pushDesc r w2

theorem wsize_pruneStepR (lb ub : Bnd K) (k : K) (v : V) (l r : Tree K V) (w : List (Act K V)) :
    wsize (pruneStepR lb ub k v l r w) ≤ 3 * size l + 3 * size r + 3 + wsize w := by
  have h1 := wsize_pushDesc l w
  unfold pruneStepR
  dsimp only
  split
  · split
    · simp only [wsize]; split <;> omega
    · split <;> omega
  · refine Nat.le_trans (wsize_pushDesc _ _) ?_
    split
    · simp only [wsize]; split <;> omega
    · split <;> omega

/-- avl.rs:1583-1605: prune the right side (worklist written back first). -/
def pruneRrev (lb ub : Bnd K) : List (Act K V) → List (Act K V)
  | .desc (.node k v _ _ l r) :: w => pruneRrev lb ub (pruneStepR lb ub k v l r w)
  | .desc .nil :: w => pruneRrev lb ub w -- no counterpart
  | w => w
termination_by w => wsize w
decreasing_by
  · have := wsize_pruneStepR lb ub k v l r w
    simp only [wsize, size]; omega
  · simp [wsize]

/-- avl.rs:1534-1613 `range` and 1616-1697 `range_mut` (same traversal). -/
def rangeOf (lb ub : Bnd K) (len : Nat) (root : Tree K V) : Iter K V :=
  ⟨(pruneRrev lb ub (pruneL lb ub (pushDesc root [])).reverse).reverse, len⟩

/-! ### Contents of worklists -/

/-- Entries an action will yield. -/
def Act.items : Act K V → List (K × V)
  | .desc t => toList t
  | .ret e => [e]

/-- Entries a worklist will yield, front to back. -/
def items (w : List (Act K V)) : List (K × V) := w.flatMap Act.items

/-- Entries of a worklist written back first, front to back. -/
def itemsRev (w : List (Act K V)) : List (K × V) := items w.reverse

@[simp] theorem items_nil : items ([] : List (Act K V)) = [] := rfl
@[simp] theorem items_cons (a : Act K V) (w) : items (a :: w) = a.items ++ items w := rfl
@[simp] theorem items_append (a b : List (Act K V)) : items (a ++ b) = items a ++ items b := by
  simp [items]
@[simp] theorem items_pushDesc (t : Tree K V) (w) : items (pushDesc t w) = toList t ++ items w := by
  cases t <;> simp [pushDesc, Act.items, toList]
@[simp] theorem itemsRev_nil : itemsRev ([] : List (Act K V)) = [] := rfl
@[simp] theorem itemsRev_cons (a : Act K V) (w) : itemsRev (a :: w) = itemsRev w ++ a.items := by
  simp [itemsRev]
@[simp] theorem itemsRev_pushDesc (t : Tree K V) (w) :
    itemsRev (pushDesc t w) = itemsRev w ++ toList t := by
  cases t <;> simp [pushDesc, Act.items, toList]

theorem nextW_spec (w : List (Act K V)) :
    (nextW w = none ∧ items w = []) ∨ ∃ x w', nextW w = some (x, w') ∧ items w = x :: items w' := by
  fun_induction nextW w with
  | case1 => exact Or.inl ⟨rfl, rfl⟩
  | case2 x w => exact Or.inr ⟨x, w, rfl, by simp [Act.items]⟩
  | case3 w ih => simpa [Act.items, toList] using ih
  | case4 k v lh rh l r w ih => simpa [Act.items, toList] using ih

theorem nextBackRev_spec (w : List (Act K V)) :
    (nextBackRev w = none ∧ itemsRev w = []) ∨
      ∃ x w', nextBackRev w = some (x, w') ∧ itemsRev w = itemsRev w' ++ [x] := by
  fun_induction nextBackRev w with
  | case1 => exact Or.inl ⟨rfl, rfl⟩
  | case2 x w => exact Or.inr ⟨x, w, rfl, by simp [Act.items]⟩
  | case3 w ih => simpa [Act.items, toList] using ih
  | case4 k v lh rh l r w ih => simpa [Act.items, toList] using ih

theorem nextBackW_spec (w : List (Act K V)) :
    (nextBackW w = none ∧ items w = []) ∨
      ∃ x w', nextBackW w = some (x, w') ∧ items w = items w' ++ [x] := by
  rcases nextBackRev_spec w.reverse with ⟨h1, h2⟩ | ⟨x, w', h1, h2⟩
  · left; simp [nextBackW, h1]; simpa [itemsRev] using h2
  · right; exact ⟨x, w'.reverse, by simp [nextBackW, h1], by simpa [itemsRev] using h2⟩

/-- One step of the iterator is one step on the list of remaining entries, provided
`len` is not too small. -/
theorem Iter.step_spec (d : Bool) (it : Iter K V) (h : (items it.work).length ≤ it.len) :
    ∃ it', it.step d = some ((Spec.dequeStep d (items it.work)).1, it') ∧
      items it'.work = (Spec.dequeStep d (items it.work)).2 ∧
      it'.len + (items it.work).length = it.len + (items it'.work).length := by
  cases d with
  | true =>
    rcases nextW_spec it.work with ⟨h1, h2⟩ | ⟨x, w', h1, h2⟩
    · exact ⟨{ it with work := [] }, by simp [step, h1, h2, Spec.dequeStep],
        by simp [h2, Spec.dequeStep], by simp [h2]⟩
    · have : it.len ≠ 0 := by rw [h2] at h; simp at h; omega
      refine ⟨⟨w', it.len - 1⟩, by simp [step, h1, h2, Spec.dequeStep, this],
        by simp [h2, Spec.dequeStep], ?_⟩
      simp [h2]; omega
  | false =>
    rcases nextBackW_spec it.work with ⟨h1, h2⟩ | ⟨x, w', h1, h2⟩
    · exact ⟨{ it with work := [] }, by simp [step, h1, h2, Spec.dequeStep],
        by simp [h2, Spec.dequeStep], by simp [h2]⟩
    · have : it.len ≠ 0 := by rw [h2] at h; simp at h; omega
      refine ⟨⟨w', it.len - 1⟩, by simp [step, h1, h2, Spec.dequeStep, this],
        by simp [h2, Spec.dequeStep], ?_⟩
      simp [h2]; omega

/-- Every schedule: results and lengths are those of the list, shifted by the slack of
`len` (zero for the exact-size iterators). -/
theorem Iter.run_spec (ds : List Bool) (it : Iter K V) (slack : Nat)
    (h : it.len = (items it.work).length + slack) :
    it.run ds = some ((Spec.dequeRun ds (items it.work)).map (fun x => (x.1, x.2 + slack))) := by
  induction ds generalizing it with
  | nil => rfl
  | cons d ds ih =>
    obtain ⟨it', e, e1, e2⟩ := it.step_spec d (by omega)
    simp only [run, e, Spec.dequeRun, List.map_cons]
    rw [ih it' (by omega), e1]
    simp only [Option.map_some]
    have : it'.len = (items it'.work).length + slack := by omega
    rw [this, e1]

theorem items_iterOf (n : Nat) (t : Tree K V) : items (iterOf n t).work = toList t := by
  simp [iterOf]

/-! ### Range -/
section range
variable [Ord K] [Std.TransOrd K]

/-- All `Return`s on the worklist are within the bounds. -/
def RetsOk (lb ub : Bnd K) (w : List (Act K V)) : Prop :=
  ∀ e, Act.ret e ∈ w → (lb.okLo e.1 && ub.okHi e.1) = true

theorem okLo_mono {lb : Bnd K} (h : lb.Lawful) {a b : K} (hab : compare a b = .lt)
    (ha : lb.okLo a = true) : lb.okLo b = true := by
  cases lb with
  | unbounded => rfl
  | included p =>
    simp only [Bnd.okLo, bne_iff_ne] at *
    have := h.mono a b hab ha; simp [this]
  | excluded p =>
    simp only [Bnd.okLo, beq_iff_eq] at *
    exact h.lt_of_lt hab ha

theorem okHi_mono {ub : Bnd K} (h : ub.Lawful) {a b : K} (hab : compare a b = .lt)
    (hb : ub.okHi b = true) : ub.okHi a = true := by
  cases ub with
  | unbounded => rfl
  | included p =>
    simp only [Bnd.okHi, bne_iff_ne] at *
    intro hc; exact hb (h.lt_of_lt hab hc)
  | excluded p =>
    simp only [Bnd.okHi, beq_iff_eq] at *
    exact h.gt_of_gt hab hb

theorem not_okHi_of_ubLe {ub : Bnd K} (h : ub.Lawful) {a b : K} (hab : compare a b = .lt)
    (ha : ubLe ub a = true) : ub.okHi b = false := by
  cases ub with
  | unbounded => simp [ubLe] at ha
  | included p =>
    simp only [ubLe, bne_iff_ne] at ha
    simp [Bnd.okHi, h.mono a b hab ha]
  | excluded p =>
    simp only [ubLe, bne_iff_ne] at ha
    simp [Bnd.okHi, h.mono a b hab ha]

theorem not_okLo_of_lbGe {lb : Bnd K} (h : lb.Lawful) {a b : K} (hab : compare a b = .lt)
    (hb : lbGe lb b = true) : lb.okLo a = false := by
  have key : ∀ p : K → Ordering, IsProbe p → p b ≠ .lt → p a = .gt := by
    intro p hp hb
    cases hpb : p b with
    | lt => exact absurd hpb hb
    | eq => exact hp.gt_of_eq hab hpb
    | gt => exact hp.gt_of_gt hab hpb
  cases lb with
  | unbounded => simp [lbGe] at hb
  | included p =>
    simp only [lbGe, bne_iff_ne] at hb
    simp [Bnd.okLo, key p h hb]
  | excluded p =>
    simp only [lbGe, bne_iff_ne] at hb
    simp [Bnd.okLo, key p h hb]

theorem mem_pushDesc_ret {e : K × V} {t : Tree K V} {w} :
    Act.ret e ∈ pushDesc t w ↔ Act.ret e ∈ w := by
  cases t <;> simp [pushDesc]

/-- Keeping or dropping a part, when dropping is justified. -/
theorem filter_part {f : K × V → Bool} {c : Bool} {m : List (K × V)}
    (h : c = true → ∀ e ∈ m, f e = false) :
    (if c then [] else m).filter f = m.filter f := by
  cases c with
  | false => simp
  | true => simp only [if_true, List.filter_nil]; exact (filter_none (h rfl)).symm

/-- Both prune loops drop only entries outside the bounds. -/
theorem prune_step {lb ub : Bnd K} (hlb : lb.Lawful) (hub : ub.Lawful) {k : K} {v : V}
    {L R : List (K × V)} (hs : Sorted (L ++ (k, v) :: R)) :
    let f := fun e : K × V => lb.okLo e.1 && ub.okHi e.1
    ((if lbGe lb k then [] else L) ++ (if f (k, v) then [(k, v)] else []) ++
      (if ubLe ub k then [] else R)).filter f = (L ++ (k, v) :: R).filter f ∧
    ((if lbGe lb k then [] else L) ++ (if f (k, v) then [(k, v)] else []) ++
      (if ubLe ub k then [] else R)).Sublist (L ++ (k, v) :: R) := by
  intro f
  obtain ⟨-, -, hL, hR⟩ := sorted_mid.1 hs
  constructor
  · simp only [List.filter_append, List.filter_cons]
    rw [filter_part (c := lbGe lb k), filter_part (c := ubLe ub k)]
    · cases hf : f (k, v) <;> simp [hf]
    · intro hc e he; simp [f, not_okHi_of_ubLe hub (hR e he) hc]
    · intro hc e he; simp [f, not_okLo_of_lbGe hlb (hL e he) hc]
  · have : L ++ (k, v) :: R = L ++ [(k, v)] ++ R := by simp
    rw [this]
    refine List.Sublist.append (List.Sublist.append ?_ ?_) ?_
    · split <;> simp
    · split <;> simp
    · split <;> simp

theorem pruneL_spec {lb ub : Bnd K} (hlb : lb.Lawful) (hub : ub.Lawful) (w : List (Act K V))
    (hs : Sorted (items w)) (hr : RetsOk lb ub w) :
    (items (pruneL lb ub w)).Sublist (items w) ∧
      Spec.range lb ub (items (pruneL lb ub w)) = Spec.range lb ub (items w) ∧
      RetsOk lb ub (pruneL lb ub w) ∧
      (pruneL lb ub w = [] ∨ ∃ e w', pruneL lb ub w = .ret e :: w') := by
  fun_induction pruneL lb ub w with
  | case1 k v lh rh l r w ih =>
    have hstep := prune_step hlb hub (k := k) (v := v) (L := toList l) (R := toList r)
      (by simp [Act.items, toList] at hs
          have : Sorted ((toList l ++ (k, v) :: toList r) ++ items w) := by simpa using hs
          exact (sorted_append.1 this).1)
    have hi : items (pruneStepL lb ub k v l r w) = ((if lbGe lb k then [] else toList l) ++
        (if lb.okLo k && ub.okHi k then [(k, v)] else []) ++
        (if ubLe ub k then [] else toList r)) ++ items w := by
      simp only [pruneStepL]
      split <;> split <;> split <;> simp [Act.items, toList]
    have hsub : (items (pruneStepL lb ub k v l r w)).Sublist (items (.desc (.node k v lh rh l r) :: w)) := by
      rw [hi]; simp only [items_cons, Act.items, toList]
      exact List.Sublist.append hstep.2 (List.Sublist.refl _)
    have hr3 : RetsOk lb ub (pruneStepL lb ub k v l r w) := by
      intro e he
      have h0 : ∀ c : Bool, ∀ t : Tree K V, ∀ e w, Act.ret e ∈ (if c then w else pushDesc t w) →
          Act.ret e ∈ w := by
        intro c t e w; split <;> simp [mem_pushDesc_ret]
      have h1 := h0 _ _ _ _ he
      split at h1
      · next hc =>
        rcases List.mem_cons.1 h1 with h1 | h1
        · cases h1; exact hc
        · exact hr e (List.mem_cons_of_mem _ (h0 _ _ _ _ h1))
      · exact hr e (List.mem_cons_of_mem _ (h0 _ _ _ _ h1))
    obtain ⟨i1, i2, i3, i4⟩ := ih (hs.sublist hsub) hr3
    refine ⟨i1.trans hsub, ?_, i3, i4⟩
    rw [i2, hi]
    have := hstep.1
    simp only [Spec.range, items_cons, Act.items, toList, List.filter_append] at this ⊢
    rw [this]
  | case2 w ih =>
    have := ih (by simpa [Act.items, toList] using hs) (fun e he => hr e (List.mem_cons_of_mem _ he))
    simpa [Act.items, toList] using this
  | case3 w h1 h2 =>
    refine ⟨List.Sublist.refl _, rfl, hr, ?_⟩
    cases w with
    | nil => exact Or.inl rfl
    | cons a w =>
      cases a with
      | ret e => exact Or.inr ⟨e, w, rfl⟩
      | desc t =>
        cases t with
        | nil => exact absurd rfl (h2 w)
        | node k v lh rh l r => exact absurd rfl (h1 k v lh rh l r w)

theorem pruneRrev_spec {lb ub : Bnd K} (hlb : lb.Lawful) (hub : ub.Lawful) (w : List (Act K V))
    (hs : Sorted (itemsRev w)) (hr : RetsOk lb ub w) :
    (itemsRev (pruneRrev lb ub w)).Sublist (itemsRev w) ∧
      Spec.range lb ub (itemsRev (pruneRrev lb ub w)) = Spec.range lb ub (itemsRev w) ∧
      RetsOk lb ub (pruneRrev lb ub w) ∧
      (pruneRrev lb ub w = [] ∨ ∃ e w', pruneRrev lb ub w = .ret e :: w') := by
  fun_induction pruneRrev lb ub w with
  | case1 k v lh rh l r w ih =>
    have hstep := prune_step hlb hub (k := k) (v := v) (L := toList l) (R := toList r)
      (by simp [Act.items, toList] at hs
          exact (sorted_append.1 hs).2.1)
    have hi : itemsRev (pruneStepR lb ub k v l r w) = itemsRev w ++ ((if lbGe lb k then [] else toList l) ++
        (if lb.okLo k && ub.okHi k then [(k, v)] else []) ++
        (if ubLe ub k then [] else toList r)) := by
      simp only [pruneStepR]
      split <;> split <;> split <;> simp [Act.items, toList]
    have hsub : (itemsRev (pruneStepR lb ub k v l r w)).Sublist (itemsRev (.desc (.node k v lh rh l r) :: w)) := by
      rw [hi]; simp only [itemsRev_cons, Act.items, toList]
      exact List.Sublist.append (List.Sublist.refl _) hstep.2
    have hr3 : RetsOk lb ub (pruneStepR lb ub k v l r w) := by
      intro e he
      have h0 : ∀ c : Bool, ∀ t : Tree K V, ∀ e w, Act.ret e ∈ (if c then w else pushDesc t w) →
          Act.ret e ∈ w := by
        intro c t e w; split <;> simp [mem_pushDesc_ret]
      have h1 := h0 _ _ _ _ he
      split at h1
      · next hc =>
        rcases List.mem_cons.1 h1 with h1 | h1
        · cases h1; exact hc
        · exact hr e (List.mem_cons_of_mem _ (h0 _ _ _ _ h1))
      · exact hr e (List.mem_cons_of_mem _ (h0 _ _ _ _ h1))
    obtain ⟨i1, i2, i3, i4⟩ := ih (hs.sublist hsub) hr3
    refine ⟨i1.trans hsub, ?_, i3, i4⟩
    rw [i2, hi]
    have := hstep.1
    simp only [Spec.range, itemsRev_cons, Act.items, toList, List.filter_append] at this ⊢
    rw [this]
  | case2 w ih =>
    have := ih (by simpa [Act.items, toList] using hs) (fun e he => hr e (List.mem_cons_of_mem _ he))
    simpa [Act.items, toList] using this
  | case3 w h1 h2 =>
    refine ⟨List.Sublist.refl _, rfl, hr, ?_⟩
    cases w with
    | nil => exact Or.inl rfl
    | cons a w =>
      cases a with
      | ret e => exact Or.inr ⟨e, w, rfl⟩
      | desc t =>
        cases t with
        | nil => exact absurd rfl (h2 w)
        | node k v lh rh l r => exact absurd rfl (h1 k v lh rh l r w)

/-- The worklist built by `range` holds exactly the entries within the bounds. -/
theorem items_rangeOf {lb ub : Bnd K} (hlb : lb.Lawful) (hub : ub.Lawful) (n : Nat)
    {t : Tree K V} (hs : Sorted (toList t)) :
    items (rangeOf lb ub n t).work = Spec.range lb ub (toList t) := by
  have h0 : items (pushDesc t []) = toList t := by simp
  have hr0 : RetsOk lb ub (pushDesc t []) := by
    intro e he; rw [mem_pushDesc_ret] at he; simp at he
  obtain ⟨a1, a2, a3, a4⟩ := pruneL_spec hlb hub (pushDesc t []) (by rw [h0]; exact hs) hr0
  rw [h0] at a1 a2
  generalize hw : pruneL lb ub (pushDesc t []) = w at a1 a2 a3 a4
  have hlo : ∀ e ∈ items w, lb.okLo e.1 = true := by
    rcases a4 with rfl | ⟨e, w', rfl⟩
    · simp
    · have hsw := hs.sublist a1
      simp only [items_cons, Act.items, List.singleton_append, sorted_cons] at hsw
      have he := a3 e (by simp)
      simp only [Bool.and_eq_true] at he
      intro x hx
      simp only [items_cons, Act.items, List.singleton_append, List.mem_cons] at hx
      rcases hx with rfl | hx
      · exact he.1
      · exact okLo_mono hlb (hsw.1 x hx) he.1
  obtain ⟨b1, b2, b3, b4⟩ := pruneRrev_spec hlb hub w.reverse
    (by simp only [itemsRev, List.reverse_reverse]; exact hs.sublist a1)
    (by intro e he; exact a3 e (by simpa using he))
  have e0 : itemsRev w.reverse = items w := by simp [itemsRev]
  rw [e0] at b1 b2
  have hwk : items (rangeOf lb ub n t).work = itemsRev (pruneRrev lb ub w.reverse) := by
    simp [rangeOf, hw, itemsRev]
  rw [hwk]
  generalize hz : pruneRrev lb ub w.reverse = z at b1 b2 b3 b4
  have hhi : ∀ e ∈ itemsRev z, ub.okHi e.1 = true := by
    rcases b4 with rfl | ⟨e, w', rfl⟩
    · simp
    · have hsw := (hs.sublist a1).sublist b1
      simp only [itemsRev_cons, Act.items] at hsw
      have he := b3 e (by simp)
      simp only [Bool.and_eq_true] at he
      intro x hx
      simp only [itemsRev_cons, Act.items, List.mem_append, List.mem_singleton] at hx
      rcases hx with hx | rfl
      · exact okHi_mono hub ((sorted_append.1 hsw).2.2 x hx e (by simp)) he.2
      · exact he.2
  rw [← a2, ← b2]
  symm
  apply filter_all
  intro e he
  simp [hhi e he, hlo e (b1.mem he)]

end range
/-- `IntoIterator` run to its end, feeding `extend` (avl.rs:2405-2407, 2276-2281). -/
def drain : Nat → Iter K V → Option (List (K × V))
  | 0, _ => none -- fuel exhausted: not reached with fuel > number of items
  | n + 1, it =>
    match it.step true with
    | none => none
    | some (none, _) => some []
    | some (some e, it') => (drain n it').map (e :: ·)

theorem drain_spec : ∀ (n : Nat) (it : Iter K V), (items it.work).length ≤ it.len →
    (items it.work).length < n → drain n it = some (items it.work) := by
  intro n
  induction n with
  | zero => intro it _ h; omega
  | succ n ih =>
    intro it h1 h2
    obtain ⟨it', e, e2, e3⟩ := Iter.step_spec true it h1
    simp only [Spec.dequeStep, if_true] at e e2
    have h3 := congrArg List.length e2
    simp only [drain, e]
    cases hi : items it.work with
    | nil => simp
    | cons x xs =>
      simp [hi] at e2 h3 h1 h2 ⊢
      simp [hi] at e3
      rw [ih it' (by omega) (by omega), e2]


end Verif.Avl
