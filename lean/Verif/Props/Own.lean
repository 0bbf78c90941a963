import Verif.Unwind.OwnInto
import Verif.Props.Unwind
/-!
# Nothing shared is taken without a clone (C74)

`m.own` lists the keys of the entries of `m` that nothing else reaches.  `tally q c` is the `Clone`
`c`, with a count of the copies made of entries whose key is in the set `q`; the count is zero at
the start.  All statements are for every `q`, so they are about multisets of keys.
-/
set_option linter.unusedSectionVars false
namespace Verif.Props
open Std Verif.Unwind Verif.Wild Verif.DemoU Verif.Avl
universe w
variable {σ : Type w} {K V : Type}

/-- A map that shares nothing owns all its entries; one that has just been cloned owns none. -/
theorem C74_own (m : AvlMap K V) :
    (SMap.ofMap m).own = m.abs.map (·.1) ∧ (SMap.ofMap m).share.own = [] := by
  constructor
  · obtain ⟨len, t⟩ := m
    simp only [SMap.own, SMap.ofMap, AvlMap.abs]
    induction t with
    | nil => rfl
    | node k v lh rh l r ihl ihr => simp [STree.ofTree, STree.own, Tree.toList, ihl, ihr]
  · obtain ⟨len, t⟩ := m
    cases t <;> rfl

example : (SMap.ofMap (ua (uents 12)).erase).own = [0, 1, 4, 7, 8, 11, 14, 15, 18, 21, 25, 28] ∧
    (ua (uents 12)).own = [] := by decide +kernel

/-- C74 for `insert`: what the map owns afterwards it owned before, or had cloned, or is the entry
inserted, whether `Clone` panics or not.  If it does not, nothing was cloned that is not owned
afterwards, but for the entry replaced. -/
theorem C74_insert [Ord K] (c : Cl σ K V) (q : K → Bool) (k : K) (v : V) (m : SMap K V) (s : σ) :
    match m.insertC (tally q c) k v (0, s) with
    | none => True
    | some (.unwound m', n, _) => m'.own.countP q ≤ m.own.countP q + n + (if q k then 1 else 0)
    | some (.done (m', old), n, _) =>
      m'.own.countP q ≤ m.own.countP q + n + (if q k then 1 else 0) ∧
      m.own.countP q + n + (if q k then 1 else 0) ≤
        m'.own.countP q + (if old.isSome then 1 else 0) := by
  have h := SMap.insertC_acc (q := q) (c := c) k v m (0, s)
  revert h
  generalize m.insertC (tally q c) k v (0, s) = x
  intro h
  match x, h with
  | none, _ => trivial
  | some (.unwound _, _, _), h => simp only [one] at *; omega
  | some (.done _, _, _), h => simp only [one] at *; omega

example : ((ua (uents 12)).insertC (tally (fun _ => true) calm) 100 0 (0, 0)).map
      (fun x => (match x.1 with | .unwound m => m.own | .done r => r.1.own, x.2.1)) =
    some ([14, 21, 28, 100], 3) := by decide +kernel
example : ((ua (uents 12)).insertC (tally (fun _ => true) (fussy 21)) 100 0 (0, 0)).map
      (fun x => (match x.1 with | .unwound m => m.own | .done r => r.1.own, x.2.1)) =
    some ([14], 1) := by decide +kernel

/-- C74 for `get_mut`, with a write. -/
theorem C74_get_mut (c : Cl σ K V) (q : K → Bool) (p : K → Ordering) (g : V → V) (m : SMap K V)
    (s : σ) :
    match m.getMutC (tally q c) p g (0, s) with
    | none => True
    | some (.unwound m', n, _) => m'.own.countP q ≤ m.own.countP q + n
    | some (.done (m', _), n, _) => m'.own.countP q = m.own.countP q + n := by
  have h := SMap.getMutC_acc (q := q) (c := c) p g m (0, s)
  revert h
  generalize m.getMutC (tally q c) p g (0, s) = x
  intro h
  match x, h with
  | none, _ => trivial
  | some (.unwound _, _, _), h => simpa [Acct] using h
  | some (.done _, _, _), h => simpa [Acct] using h

example : ((ua (uents 12)).getMutC (tally (fun _ => true) calm) (compare 7) (· + 1) (0, 0)).map
      (fun x => (match x.1 with | .unwound m => m.own | .done r => r.1.own, x.2.1)) =
    some ([7, 14], 2) := by decide +kernel

/-- C74 for `remove`, `pop_first` and `pop_last`; the entry that they return is counted, too. -/
theorem C74_take (c : Cl σ K V) (q : K → Bool) (w : Which K) (m : SMap K V) (s : σ) :
    match m.takeC (tally q c) w (0, s) with
    | none => True
    | some (.unwound m', n, _) => m'.own.countP q ≤ m.own.countP q + n
    | some (.done (m', r), n, _) =>
      (m'.own ++ (r.map (·.1)).toList).countP q = m.own.countP q + n := by
  have h := SMap.takeC_acc (q := q) (c := c) w m (0, s)
  revert h
  generalize m.takeC (tally q c) w (0, s) = x
  intro h
  match x, h with
  | none, _ => trivial
  | some (.unwound _, _, _), h => simpa [Acct] using h
  | some (.done (_, none), _, _), h => simpa [Acct] using h
  | some (.done (_, some _), _, _), h => simpa [Acct, one, List.countP_cons] using h

example : ((ua (uents 12)).takeC (tally (fun _ => true) calm) (.key (compare 14)) (0, 0)).map
      (fun x => (match x.1 with | .unwound m => m.own | .done r => r.1.own, x.2.1)) =
    some ([15, 18, 21], 4) := by decide +kernel

/-- C74 for `append`. -/
theorem C74_append [Ord K] (c : Cl σ K V) (q : K → Bool) (m other : SMap K V) (s : σ) :
    match m.appendC (tally q c) other (0, s) with
    | none => True
    | some (.unwound (a, b), n, _) =>
      (a.own ++ b.own).countP q ≤ (m.own ++ other.own).countP q + n
    | some (.done (a, b), n, _) =>
      (a.own ++ b.own).countP q ≤ (m.own ++ other.own).countP q + n := by
  have h := SMap.appendC_acc (q := q) (c := c) m other (0, s)
  revert h
  generalize m.appendC (tally q c) other (0, s) = x
  intro h
  match x, h with
  | none, _ => trivial
  | some (.unwound _, _, _), h => simpa [AcctLe] using h
  | some (.done _, _, _), h => simpa [AcctLe] using h

example : ((ua (uents 12)).appendC (tally (fun _ => true) calm) (ua [(3, 0), (13, 0), (22, 9)])
      (0, 0)).map (fun x => (match x.1 with | .unwound r => r.1.own | .done r => r.1.own, x.2.1)) =
    some ([1, 3, 4, 7, 11, 13, 14, 21, 22, 25, 28], 11) := by decide +kernel

/-- C74 for `split_off`. -/
theorem C74_split_off [Ord K] (c : Cl σ K V) (q : K → Bool) (m : SMap K V) (p : K → Ordering)
    (s : σ) :
    match m.splitOffC (tally q c) p (0, s) with
    | none => True
    | some (.unwound a, n, _) => a.own.countP q ≤ m.own.countP q + n
    | some (.done (a, b), n, _) => (a.own ++ b.own).countP q ≤ m.own.countP q + n := by
  have h := SMap.splitOffC_acc (q := q) (c := c) m p (0, s)
  revert h
  generalize m.splitOffC (tally q c) p (0, s) = x
  intro h
  match x, h with
  | none, _ => trivial
  | some (.unwound _, _, _), h => simpa [AcctLe] using h
  | some (.done _, _, _), h => simpa [AcctLe] using h

example : ((ua (uents 12)).splitOffC (tally (fun _ => true) calm) (compare 10) (0, 0)).map
      (fun x => (match x.1 with | .unwound m => m.own | .done r => r.1.own ++ r.2.own, x.2.1)) =
    some ([7, 8, 11, 14, 21], 5) := by decide +kernel

/-- C74 for `retain`: all that it keeps has been cloned. -/
theorem C74_retain {τ : Type} (c : Cl σ K V) (q : K → Bool) (m : SMap K V)
    (f : τ → K → V → τ × V × Bool) (a : τ) (s : σ) :
    match m.retainC (tally q c) f a (0, s) with
    | none => True
    | some (.unwound m', n, _) => m'.own.countP q ≤ n
    | some (.done (_, m'), n, _) => m'.own.countP q ≤ n := by
  have h := SMap.retainC_acc (q := q) (c := c) m f a (0, s)
  revert h
  generalize m.retainC (tally q c) f a (0, s) = x
  intro h
  match x, h with
  | none, _ => trivial
  | some (.unwound _, _, _), h => simpa [AcctLe] using h
  | some (.done _, _, _), h => simpa [AcctLe] using h

example : ((ua (uents 12)).retainC (tally (fun _ => true) calm) (fun t k v => (t, v, k % 2 == 0)) ()
      (0, 0)).map (fun x => (match x.1 with | .unwound m => m.own | .done r => r.2.own, x.2.1)) =
    some ([0, 4, 8, 14, 18, 28], 18) := by decide +kernel

/-- C74 for `into_iter` of `AvlMap`: what it has yielded by the end of any schedule, and what the
iterator still owns, the map owned, or has been cloned. -/
theorem C74_avl_into (c : Cl σ K V) (q : K → Bool) (m : SMap K V) (ds : List Bool) (s s' : σ)
    (n : Nat) (it : AvlInto.It K V)
    (h : finish (AvlInto.step (tally q c)) ds (AvlInto.start m) (0, s) = some (it, n, s')) :
    (((AvlInto.run (tally q c) m ds (0, s)).filterMap Ev.item).map (·.1)).countP q +
      AvlInto.own q it.work = m.own.countP q + n := by
  have := evs_acc (len := AvlInto.It.len) (fun d it s => AvlInto.step_acc q c d it s) ds _ _ _ _ h
  rw [AvlInto.own_start] at this
  rw [List.countP_map]
  exact this

example : (finish (AvlInto.step (tally (fun _ => true) calm)) [true, false, true]
      (AvlInto.start (ua (uents 12))) (0, 0)).map (fun x => (AvlInto.own (fun _ => true) x.1.work,
        x.2.1)) = some (3, 6) := by decide +kernel

/-- C74 for `into_iter` of `BTreeMap`; `o` says which nodes are shared. -/
theorem C74_btree_into (c : Cl σ K V) (q : K → Bool) (m : BTree.BTreeMap K V)
    (o : BTree.Sharing K V) (ds : List Bool) (s s' : σ) (n : Nat)
    (it : BTree.InnerIter (BTree.IntoErg K V))
    (h : finish (BTreeInto.step (tally q c)) ds (m.intoIter o) (0, s) = some (it, n, s')) :
    (((BTreeInto.run (tally q c) m o ds (0, s)).filterMap Ev.item).map (·.1)).countP q +
      BTreeInto.ownW q it.work =
      ((m.root.map o.annot).elim [] BTreeInto.ownN).countP q + n := by
  have := evs_acc (len := BTree.InnerIter.len) (fun d it s => BTreeInto.step_acc q c d it s) ds
    _ _ _ _ h
  rw [List.countP_map]
  refine this.trans ?_
  congr 1
  unfold BTree.BTreeMap.intoIter BTree.intoIterOf
  cases m.root with
  | none => rfl
  | some r => simp [BTreeInto.ownW, BTreeInto.ownE_make]

example : (finish (BTreeInto.step (tally (fun _ => true) calm)) [true, false, true]
      ((ub 1 (uents 7)).intoIter .shared) (0, 0)).map (fun x => x.2.1) = some 3 ∧
    (finish (BTreeInto.step (tally (fun _ => true) calm)) [true, false, true]
      ((ub 1 (uents 7)).intoIter .unique) (0, 0)).map
        (fun x => (BTreeInto.ownW (fun _ => true) x.1.work, x.2.1)) = some (4, 0) := by
  decide +kernel

end Verif.Props
