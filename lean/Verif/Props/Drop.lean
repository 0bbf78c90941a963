import Verif.Drop.Facts
import Verif.Props.Demo
/-!
# What a panicking destructor can do

`Drop` of keys and values is any computation on a state `σ` that may panic whenever it likes.

C60 is about the slots of the nodes of `btree::fixed`: they are `MaybeUninit`, so that nothing but the
code itself keeps a key or value from being destroyed twice.  C61 and C62 are about the maps that a
panic leaves behind.
-/
set_option linter.unusedVariables false

namespace Verif.DemoD
open Verif.Drop Verif.Wild Verif.Demo

/-- `Drop` that never panics; the state counts the calls. -/
def calm {α : Type} : Dr Nat α := fun _ s => (false, s + 1)

/-- `Drop` that always panics. -/
def rude {α : Type} : Dr Nat α := fun _ s => (true, s + 1)

/-- `Drop` that panics at `j`. -/
def fussy (j : Nat) : Dr Nat Nat := fun a s => (a == j, s + 1)

/-- A leaf of three entries; the `Arc` is number 0. -/
def leaf3 : Fixed.Raw.Ref Nat := .mk 0 true [(1, 2), (3, 4), (5, 6)] []

/-- A root with one entry and two leaves, of six and five entries; the second one is shared. -/
def tree12 : Fixed.Raw.Ref Nat :=
  .mk 0 true [(1, 2)] [.mk 3 true ((List.range 6).map (fun i => (10 + 2 * i, 11 + 2 * i))) [],
    .mk 4 false ((List.range 5).map (fun i => (30 + 2 * i, 31 + 2 * i))) []]

/-- A `fixed::BTreeMap`. -/
def fm (es : List (Nat × Nat)) : Fixed.FMap Nat Nat := (Fixed.FMap.extend true .new es).getD .new

theorem fm_reach (es : List (Nat × Nat)) : Fixed.Reachable true (fm es) := by
  obtain ⟨m, e, -⟩ := Fixed.FMap.extend_spec (lin := true)
    (Fixed.Reachable.new (lin := true) (K := Nat) (V := Nat)).wf es
  rw [fm, e]
  exact Fixed.Reachable.extend .new e

theorem fm3_root : (fm [(1, 2), (3, 4), (5, 6)]).root =
    some (.mk [(1, 2), (3, 4), (5, 6)] []) := by rfl

theorem fm12_root : (fm ((List.range 12).map (fun i => (i, i)))).root =
    some (.mk [(6, 6)] [.mk ((List.range 6).map (fun i => (i, i))) [],
      .mk ((List.range 5).map (fun i => (7 + i, 7 + i))) []]) := by rfl

theorem leaf3_fits : leaf3.Fits (.mk [(1, 2), (3, 4), (5, 6)] [] : BTree.Node Nat Nat) := by
  simp [leaf3, Fixed.Raw.Ref.Fits, Fixed.Raw.FitsAll]

theorem tree12_fits : tree12.Fits (.mk [(6, 6)] [.mk ((List.range 6).map (fun i => (i, i))) [],
    .mk ((List.range 5).map (fun i => (7 + i, 7 + i))) []] : BTree.Node Nat Nat) := by
  simp [tree12, Fixed.Raw.Ref.Fits, Fixed.Raw.FitsAll]

/-- Entries in a scrambled order, with keys that differ in what `Ord` does not see. -/
def dents (t n : Nat) : List (CKey × Nat) :=
  (List.range n).map (fun i => (⟨i * 7 % 31, t⟩, 100 * t + i))

/-- A program, the removals being named by `f`; `Drop` panics in several calls. -/
def dprog {W : Type} (f : CKey → W) (p : Bool) : List (Kit.Cmd Nat CKey Nat W) :=
  [.extend 0 rude rude (dents 0 20), .clone 0 1, .insert 0 rude ⟨7, 1⟩ 900, .insert 0 calm ⟨14, 1⟩ 901,
   .extend 1 calm rude [(⟨100, 1⟩, 0), (⟨21, 1⟩, 1), (⟨101, 1⟩, 2)], .remove 0 rude (f ⟨0, 5⟩),
   .clone 0 2, .extend 2 rude rude [(⟨200, 1⟩, 0), (⟨8, 1⟩, 1), (⟨201, 1⟩, 2)],
   .getMut 2 (compare (⟨28, 9⟩ : CKey)) (· + 1000), .clear 1 p, .clear 1 p]

theorem dprog_lawful {W : Type} {okW : W → Prop} {f : CKey → W} (h : ∀ k, okW (f k)) (p : Bool) :
    ∀ cmd ∈ dprog f p, cmd.Lawful okW := by
  simp only [dprog, List.mem_cons, List.not_mem_nil, or_false, forall_eq_or_imp, forall_eq,
    Kit.Cmd.Lawful]
  exact ⟨trivial, trivial, trivial, trivial, trivial, h _, trivial, trivial, isProbe_compare _,
    trivial, trivial⟩

/-- How an operation ended, and what it left. -/
def how {N R A : Type} (f : N → A) (g : R → A) : Ends N R → Bool × A
  | .unwound n => (false, f n)
  | .done r => (true, g r)

/-- An `AvlMap`. -/
def da (es : List (CKey × Nat)) : Avl.AvlMap CKey Nat := (Avl.AvlMap.extend .new es).getD .new

theorem da_reach (es : List (CKey × Nat)) : Avl.Reachable (da es) := by
  obtain ⟨m, e, -⟩ := Avl.AvlMap.extend_spec (Avl.Reachable.new (K := CKey) (V := Nat)).wf es
  rw [da, e]
  exact Avl.Reachable.extend .new e

/-- A `BTreeMap`. -/
def db (N : Nat) (es : List (CKey × Nat)) : BTree.BTreeMap CKey Nat :=
  (BTree.BTreeMap.extend N .new es).getD .new

theorem db_reach {N : Nat} (hN : 1 ≤ N) (es : List (CKey × Nat)) : BTree.Reachable N (db N es) := by
  obtain ⟨m, e, -⟩ := BTree.BTreeMap.extend_spec
    ((BTree.Reachable.new (N := N) (K := CKey) (V := Nat)).wf hN) es
  rw [db, e]
  exact BTree.Reachable.extend .new e

/-- A `fixed::BTreeMap`. -/
def df (lin : Bool) (es : List (CKey × Nat)) : Fixed.FMap CKey Nat :=
  (Fixed.FMap.extend lin .new es).getD .new

theorem df_reach (lin : Bool) (es : List (CKey × Nat)) : Fixed.Reachable lin (df lin es) := by
  obtain ⟨m, e, -⟩ := Fixed.FMap.extend_spec (lin := lin)
    (Fixed.Reachable.new (lin := lin) (K := CKey) (V := Nat)).wf es
  rw [df, e]
  exact Fixed.Reachable.extend .new e

end Verif.DemoD

namespace Verif.Props
open Std Verif.Unwind Verif.Wild Verif.Drop Verif.Demo Verif.DemoD
universe w
variable {σ : Type w} {K V α : Type}

/-! ## C60: the slots of `btree::fixed` -/

section
open Verif.Fixed.Raw

/-- C60.  The drop of a reference to a tree destroys everything that the reference owns at most once,
whatever destructors panic, and exactly once if none does or if it ends well. -/
theorem C60_drop (r : Ref α) (d : Fixed.Raw.Dr σ α) (u : Bool) (s : σ) :
    (dropRef d u r s).2.1.Sublist r.owned ∧
    (r.owned.Nodup → (dropRef d u r s).2.1.Nodup) ∧
    ((dropRef d u r s).1 = .fine → (dropRef d u r s).2.1 = r.owned) ∧
    (Calm d → (dropRef d u r s).1 = .fine) := by
  have h := dropRef_once d u r s
  exact ⟨h.1, fun hn => hn.sublist h.1, h.2, fun hd => dropRef_fine hd u r s⟩

/-- Key number 12 panics: the rest of its leaf is lost, and so is the second leaf's `Arc`. -/
example : tree12.owned.Nodup ∧ dropRef (fussy 12) false tree12 0 = (.panic, [0, 1, 2, 3, 10, 11, 12], 5) ∧
    dropRef calm false tree12 0 =
      (.fine, [0, 1, 2, 3, 10, 11, 12, 13, 14, 15, 16, 17, 18, 19, 20, 21, 4], 14) := by
  decide +kernel

variable [Ord K] [TransOrd K] {lin : Bool}

/-- C60, what is left of it for `into_iter`.  Whatever the order of the calls of `next` and
`next_back`, and whatever nodes are shared: no slot is read out of bounds; nothing is given away
twice; and if the iterator's drop ends well, and so in particular if no destructor panics,
everything was given away or destroyed exactly once. -/
theorem C60_into_iter_partial {m : Fixed.FMap K V} (hm : Fixed.Reachable lin m) {n : BTree.Node K V}
    (hn : m.root = some n) {r : Ref α} (hr : r.Fits n) (bs : List Bool) (d : Fixed.Raw.Dr σ α) (s : σ) :
    ∃ x, (Mach.new r).run bs = some x ∧ (r.owned.Nodup → x.gone.Nodup) ∧ x.gone ⊆ r.owned ∧
      ((x.drop d s).1 = .fine → (x.drop d s).2.Perm r.owned) ∧
      (Calm d → (x.drop d s).1 = .fine) := by
  obtain ⟨h, ho⟩ := hm.wf.shape n hn
  obtain ⟨x, e, hx⟩ := Mach.run_ok bs (Mach.new_ok (hr.shape ho))
  refine ⟨x, e, fun hd => ?_, fun a ha => ?_, fun hf => ?_, fun hd => dropWork_fine hd false _ s⟩
  · exact (List.nodup_append.1 (hx.perm.nodup_iff.2 hd)).1
  · exact hx.perm.subset (List.mem_append_left _ ha)
  · have := dropWork_rest (d := d) (u := false) (fun w hw => (hx.its w hw).1) hf
    simp only [Mach.drop, this]
    exact hx.perm

/-- Three rounds from the front and two from the back of a map of twelve entries: the root, the two
entries 10 and 12, and the entry of the root are given away; the drop destroys the other four of the
first leaf.  The second leaf is shared. -/
example : Fixed.Reachable true (fm ((List.range 12).map (fun i => (i, i)))) ∧
    (∃ n, (fm ((List.range 12).map (fun i => (i, i)))).root = some n ∧ tree12.Fits n) ∧
    ((Mach.new tree12).run [true, true, true, false, false]).map (fun x => (x.gone, x.drop calm 0)) =
      some ([0, 3, 10, 11, 12, 13, 1, 2, 4],
        (.fine, [0, 3, 10, 11, 12, 13, 1, 2, 4, 14, 15, 16, 17, 18, 19, 20, 21])) :=
  ⟨fm_reach _, ⟨_, fm12_root, tree12_fits⟩, by decide +kernel⟩

/-- C60 is false for `into_iter`: whenever a panic leaves the drop of the iterator, something was
given away or destroyed twice. -/
theorem C60_into_iter_panic {m : Fixed.FMap K V} (hm : Fixed.Reachable lin m) {n : BTree.Node K V}
    (hn : m.root = some n) {r : Ref α} (hr : r.Fits n) {bs : List Bool} {d : Fixed.Raw.Dr σ α} {s : σ}
    {x : Mach α} (hx : (Mach.new r).run bs = some x) (hp : (x.drop d s).1 = .panic) :
    ¬ (x.drop d s).2.Nodup := by
  obtain ⟨h, ho⟩ := hm.wf.shape n hn
  obtain ⟨x', e, hx'⟩ := Mach.run_ok bs (Mach.new_ok (hr.shape ho))
  rw [hx] at e; cases e
  exact dropWork_panic hx'.its hp

/-- C60 is false for `into_iter`: a map of three entries, of which the first one is given to the
caller; then the destructor of the second key (number 3) panics, once, and the first key and value
(numbers 1 and 2), which are the caller's, are destroyed, and the second key twice. -/
theorem C60_into_iter_false : ∃ (m : Fixed.FMap Nat Nat) (n : BTree.Node Nat Nat) (r : Ref Nat)
    (d : Fixed.Raw.Dr Nat Nat) (x : Mach Nat), Fixed.Reachable true m ∧ m.root = some n ∧ r.Fits n ∧
      r.owned.Nodup ∧ (Mach.new r).run [true] = some x ∧ x.gone = [0, 1, 2] ∧
      x.drop d 0 = (.panic, [0, 1, 2, 3, 1, 2, 3, 4, 5, 6]) := by
  refine ⟨fm [(1, 2), (3, 4), (5, 6)], _, leaf3, fun a s => (a == 3 && s == 0, s + 1), ⟨[⟨true,
    [(1, 2), (3, 4), (5, 6)], [], 1, 3, 0, 0⟩], [0, 1, 2]⟩, fm_reach _, fm3_root, leaf3_fits, ?_, rfl,
    rfl, ?_⟩
  · decide
  · decide
end

/-! ## C61: what is left is a map -/

variable [Ord K] [TransOrd K]

/-- C61 for `AvlMap`.  Programs of insertions, removals, mutable lookups, `extend`s, clones and
`clear`s, with destructors that may panic in any of them: the crate never panics by itself, and every
map is one that could have been made with no panic at all. -/
theorem C61_avl (cs : List (Drop.Kit.Cmd σ K V (Which K))) (hc : ∀ cmd ∈ cs, cmd.Lawful Which.Ok)
    (s : σ) : ∃ st s', Avl.AvlMap.dropKit.run (fun _ => Avl.AvlMap.new) s cs = some (st, s') ∧
      ∀ i, Avl.Reachable (st i) ∧ Sorted (st i).abs ∧ (st i).len = (st i).abs.length := by
  obtain ⟨st, s', e, h⟩ := Drop.Kit.run_good (σ := σ) Avl.AvlMap.dropKit_keeps cs
    (fun _ => Avl.AvlMap.new) s hc (fun _ _ _ => trivial) (fun _ => .new)
  exact ⟨st, s', e, fun i => ⟨h i, (h i).wf.sorted, (h i).wf.len_eq⟩⟩

/-- The program of the example is such a program; a destructor panics in six of its calls. -/
example : (∀ cmd ∈ dprog (fun k => Which.key (compare k)) true, cmd.Lawful Which.Ok) ∧
    (Avl.AvlMap.dropKit.run (fun _ => Avl.AvlMap.new) 0 (dprog (fun k => .key (compare k)) true)).map
      (fun r => (r.1 0).abs.filter (fun e => e.1.id ≤ 14)) =
    some [(⟨1, 0⟩, 9), (⟨2, 0⟩, 18), (⟨4, 0⟩, 5), (⟨5, 0⟩, 14), (⟨7, 1⟩, 1), (⟨8, 0⟩, 10),
      (⟨9, 0⟩, 19), (⟨11, 0⟩, 6), (⟨12, 0⟩, 15), (⟨14, 1⟩, 901)] :=
  ⟨dprog_lawful (okW := Which.Ok) (f := fun k => Which.key (compare k)) (fun k => isProbe_compare k) true, by decide +kernel⟩

/-- C61 for `BTreeMap`. -/
theorem C61_btree {N : Nat} (hN : 1 ≤ N) (cs : List (Drop.Kit.Cmd σ K V (Which K)))
    (hc : ∀ cmd ∈ cs, cmd.Lawful Which.Ok) (s : σ) :
    ∃ st s', (BTree.BTreeMap.dropKit N).run (fun _ => BTree.BTreeMap.new) s cs = some (st, s') ∧
      ∀ i, BTree.Reachable N (st i) ∧ Sorted (st i).abs ∧ (st i).len = (st i).abs.length := by
  obtain ⟨st, s', e, h⟩ := Drop.Kit.run_good (σ := σ) (BTree.BTreeMap.dropKit_keeps hN) cs
    (fun _ => BTree.BTreeMap.new) s hc (fun _ _ _ => trivial) (fun _ => .new)
  exact ⟨st, s', e, fun i => ⟨h i, ((h i).wf hN).sorted, ((h i).wf hN).len_eq⟩⟩

example : (∀ cmd ∈ dprog (fun k => Which.key (compare k)) true, cmd.Lawful Which.Ok) ∧
    ((BTree.BTreeMap.dropKit 1).run (fun _ => BTree.BTreeMap.new) 0
      (dprog (fun k => .key (compare k)) true)).map
      (fun r => ((r.1 0).abs.filter (fun e => e.1.id ≤ 14), (r.1 1).len)) =
    some ([(⟨1, 0⟩, 9), (⟨2, 0⟩, 18), (⟨4, 0⟩, 5), (⟨5, 0⟩, 14), (⟨7, 1⟩, 1), (⟨8, 0⟩, 10),
      (⟨9, 0⟩, 19), (⟨11, 0⟩, 6), (⟨12, 0⟩, 15), (⟨14, 1⟩, 901)], 0) :=
  ⟨dprog_lawful (okW := Which.Ok) (f := fun k => Which.key (compare k)) (fun k => isProbe_compare k) true, by decide +kernel⟩

/-- C61, what is left of it for `fixed::BTreeMap`.  The crate never panics by itself, and every map is
one that could have been made with no panic, or is empty with a wrong `len`, which the next insertion
puts right.  If destructors do not panic in `clear`, every map is of the first kind. -/
theorem C61_fixed_partial {lin : Bool} (cs : List (Drop.Kit.Cmd σ K V (K → Ordering)))
    (hc : ∀ cmd ∈ cs, cmd.Lawful IsProbe) (s : σ) :
    ∃ st s', (Fixed.FMap.dropKit lin).run (fun _ => Fixed.FMap.new) s cs = some (st, s') ∧
      (∀ i, Fixed.Reachable lin (st i) ∨ ((st i).toList = [] ∧
        ∀ k v, ∃ m', (st i).insert lin k v = some (m', none) ∧ Fixed.Reachable lin m' ∧
          m'.toList = [(k, v)])) ∧
      ((∀ cmd ∈ cs, cmd.CalmClear) → ∀ i, Fixed.Reachable lin (st i)) := by
  obtain ⟨st, s', e, h⟩ := Drop.Kit.run_good (σ := σ) (Fixed.FMap.dropKit_keeps' (lin := lin)) cs
    (fun _ => Fixed.FMap.new) s hc (fun _ _ _ => trivial) (fun _ => .inl .new)
  refine ⟨st, s', e, fun i => ?_, fun hp => ?_⟩
  · rcases h i with h | h
    · exact .inl h
    · refine .inr ⟨?_, fun k v => ?_⟩
      · have : (st i).root = none := h
        simp [Fixed.FMap.toList, this]
      · obtain ⟨m', e', -, h'⟩ := Fixed.FMap.insert_spec (lin := lin)
          (Fixed.FMap.wf_new (K := K) (V := V)) k v
        exact ⟨m', by rw [Fixed.FMap.insert_stale lin h, e']; rfl, .insert .new e', by rw [h']; rfl⟩
  · obtain ⟨st2, s2, e2, h2⟩ := Drop.Kit.run_good (σ := σ) (Fixed.FMap.dropKit_keeps (lin := lin)) cs
      (fun _ => Fixed.FMap.new) s hc (fun i p hm => hp _ hm) (fun _ => .new)
    rw [e] at e2; cases e2
    exact h2

example : (∀ cmd ∈ dprog (fun k => compare k) false, cmd.Lawful IsProbe) ∧
    (∀ cmd ∈ dprog (fun (k : CKey) => compare k) false, cmd.CalmClear) ∧
    ((Fixed.FMap.dropKit true).run (fun _ => Fixed.FMap.new) 0 (dprog (fun k => compare k) false)).map
      (fun r => ((r.1 0).toList.filter (fun e => e.1.id ≤ 14), (r.1 1).len)) =
    some ([(⟨1, 0⟩, 9), (⟨2, 0⟩, 18), (⟨4, 0⟩, 5), (⟨5, 0⟩, 14), (⟨7, 1⟩, 900), (⟨8, 0⟩, 10),
      (⟨9, 0⟩, 19), (⟨11, 0⟩, 6), (⟨12, 0⟩, 15), (⟨14, 1⟩, 901)], 0) :=
  ⟨dprog_lawful (fun k => isProbe_compare k) false, by
    simp [dprog, Drop.Kit.Cmd.CalmClear], by decide +kernel⟩

/-- C61 is false for `fixed::BTreeMap`: a destructor that panics in `clear` leaves a map with no
entries and a `len` of 3. -/
theorem C61_fixed_false : ∃ (cs : List (Drop.Kit.Cmd Nat Nat Nat (Nat → Ordering)))
    (st : Unwind.Kit.Maps (Fixed.FMap Nat Nat)) (s : Nat), (∀ cmd ∈ cs, cmd.Lawful IsProbe) ∧
      (Fixed.FMap.dropKit true).run (fun _ => Fixed.FMap.new) 0 cs = some (st, s) ∧
      (st 0).toList = [] ∧ (st 0).len = 3 ∧ ¬ Fixed.Reachable true (st 0) := by
  refine ⟨[.extend 0 calm calm [(1, 2), (3, 4), (5, 6)], .clear 0 true],
    Unwind.Kit.upd (Unwind.Kit.upd (fun _ => .new) 0 ⟨some (.mk [(1, 2), (3, 4), (5, 6)] []), 3⟩) 0
      ⟨none, 3⟩, 0, ?_, rfl, rfl, rfl, fun h => ?_⟩
  · simp [Drop.Kit.Cmd.Lawful]
  · have := h.wf.len
    exact absurd this (by decide)

/-! ## C62: all or nothing -/

/-- C62, what is left of it for `AvlMap`.  An insertion that a destructor interrupts has exchanged the
key and kept the value: the map is as it was, but for the key that is equal to `k`.  A removal is
complete whatever the destructor does. -/
theorem C62_avl_partial {m : Avl.AvlMap K V} (hm : Avl.Reachable m) (d : Dr σ K) (s : σ) :
    (∀ k v, ∃ q s', m.insertD d k v s = some (q, s') ∧ match q with
      | .unwound m' => Avl.Reachable m' ∧ Rude d ∧ (∃ e ∈ m.abs, compare k e.1 = .eq) ∧
          m'.abs = m.abs.map (fun e => if compare k e.1 = .eq then (k, e.2) else e)
      | .done (m', o) => Avl.Reachable m' ∧ o = (Spec.find (compare k) m.abs).map (·.2) ∧
          m'.abs = Spec.insert k v m.abs) ∧
    ∀ p, IsProbe p → ∃ q s', Avl.AvlMap.dropKit.remove d (.key p) m s = some (q, s') ∧ match q with
      | .unwound m' => Avl.Reachable m' ∧ Rude d ∧ m'.abs = Spec.erase p m.abs
      | .done (m', o) => Avl.Reachable m' ∧ o = (Spec.find p m.abs).map (·.2) ∧
          m'.abs = Spec.erase p m.abs := by
  refine ⟨fun k v => ?_, fun p hp => ?_⟩
  · have h := Avl.AvlMap.insertD_spec d k v m s
    rcases e : m.insertD d k v s with _ | ⟨m' | ⟨m', o⟩, s1⟩ <;> rw [e] at h <;> dsimp only at h
    · obtain ⟨m2, e2, -⟩ := Avl.AvlMap.insert_spec hm.wf k v
      rw [h] at e2; cases e2
    · obtain ⟨⟨o, h⟩, hr⟩ := h
      refine ⟨_, _, rfl, hm.insert h, hr, ?_⟩
      obtain ⟨m2, e2, -, h2⟩ := Avl.AvlMap.insert_spec hm.wf k o
      rw [h] at e2
      simp only [Option.some.injEq, Prod.mk.injEq] at e2
      obtain ⟨rfl, e2⟩ := e2
      exact exchanged hm.wf.sorted h2 e2
    · refine ⟨_, _, rfl, hm.insert h, ?_⟩
      obtain ⟨m2, e2, -, h2⟩ := Avl.AvlMap.insert_spec hm.wf k v
      rw [h] at e2
      simp only [Option.some.injEq, Prod.mk.injEq] at e2
      obtain ⟨rfl, e2⟩ := e2
      exact ⟨e2, h2⟩
  · obtain ⟨m2, e2, -, h2⟩ := Avl.AvlMap.removeEntry_spec hm.wf hp
    have e3 : Avl.AvlMap.takeD (.key p) m = some (m2, Spec.find p m.abs) := e2
    have hr := hm.removeEntry hp e2
    rcases hd : dropOpt d ((Spec.find p m.abs).map (·.1)) s with ⟨_ | _, s1⟩
    · exact ⟨.done (m2, (Spec.find p m.abs).map (·.2)), s1, by
        simp only [Drop.Kit.remove, Avl.AvlMap.dropKit, e3, hd], hr, rfl, h2⟩
    · exact ⟨.unwound m2, s1, by simp only [Drop.Kit.remove, Avl.AvlMap.dropKit, e3, hd], hr,
        rude_of_dropOpt hd, h2⟩

/-- If equal keys are identical, an insertion that is interrupted does nothing. -/
theorem C62_avl_equal_keys {m : Avl.AvlMap K V} (hm : Avl.Reachable m)
    (hK : ∀ a b : K, compare a b = .eq → a = b) {d : Dr σ K} {k : K} {v : V} {s s' : σ}
    {m' : Avl.AvlMap K V} (h : m.insertD d k v s = some (.unwound m', s')) : m'.abs = m.abs := by
  obtain ⟨q, s2, e, hq⟩ := (C62_avl_partial hm d s).1 k v
  rw [h] at e; cases e
  rw [hq.2.2.2, exchange_id hK]

/-- Numbers are such keys. -/
example : (∀ a b : Nat, compare a b = .eq → a = b) ∧
    (∃ m : Avl.AvlMap Nat Nat, Avl.Reachable m ∧ (m.insertD rude 7 900 0).map (fun r =>
      how (fun m => m.abs) (fun x => x.1.abs) r.1) = some (false, [(3, 4), (7, 8)])) :=
  ⟨fun a b h => Nat.compare_eq_eq.1 h, _, .insert (.insert .new (k := 3) (v := 4) rfl) (k := 7) (v := 8) rfl,
    by decide +kernel⟩

/-- The first insertion is interrupted and has exchanged the key 7, the second one is not; a removal
whose destructor panics. -/
example : Avl.Reachable (da (dents 0 6)) ∧
    ((da (dents 0 6)).insertD rude ⟨7, 1⟩ 900 0).map (fun r =>
      how (fun m => m.abs) (fun x => x.1.abs) r.1) =
      some (false, [(⟨0, 0⟩, 0), (⟨4, 0⟩, 5), (⟨7, 1⟩, 1), (⟨14, 0⟩, 2), (⟨21, 0⟩, 3), (⟨28, 0⟩, 4)]) ∧
    ((da (dents 0 6)).insertD rude ⟨8, 1⟩ 900 0).map (fun r =>
      how (fun m => m.len) (fun x => x.1.len) r.1) = some (true, 7) ∧
    (Avl.AvlMap.dropKit.remove rude (.key (compare ⟨7, 9⟩)) (da (dents 0 6)) 0).map (fun r =>
      how (fun m => m.abs.map (·.1.id)) (fun x => x.1.abs.map (·.1.id)) r.1) =
      some (false, [0, 4, 14, 21, 28]) :=
  ⟨da_reach _, by decide +kernel⟩

/-- C62 is false for `AvlMap`: an interrupted insertion leaves a map that is neither as it was nor as
it should be. -/
theorem C62_avl_false : ∃ (m m' : Avl.AvlMap CKey Nat) (d : Dr Nat CKey) (k : CKey) (v s : Nat),
    Avl.Reachable m ∧ m.insertD d k v 0 = some (.unwound m', s) ∧ m'.abs ≠ m.abs ∧
      m'.abs ≠ Spec.insert k v m.abs := by
  refine ⟨da [(⟨1, 0⟩, 10)], ⟨1, .node ⟨1, 1⟩ 10 0 0 .nil .nil⟩, rude, ⟨1, 1⟩, 11, 1, da_reach _, rfl, ?_⟩
  decide +kernel

/-- C62, what is left of it for `BTreeMap`. -/
theorem C62_btree_partial {N : Nat} (hN : 1 ≤ N) {m : BTree.BTreeMap K V} (hm : BTree.Reachable N m)
    (d : Dr σ K) (s : σ) :
    (∀ k v, ∃ q s', m.insertD N d k v s = some (q, s') ∧ match q with
      | .unwound m' => BTree.Reachable N m' ∧ Rude d ∧ (∃ e ∈ m.abs, compare k e.1 = .eq) ∧
          m'.abs = m.abs.map (fun e => if compare k e.1 = .eq then (k, e.2) else e)
      | .done (m', o) => BTree.Reachable N m' ∧ o = (Spec.find (compare k) m.abs).map (·.2) ∧
          m'.abs = Spec.insert k v m.abs) ∧
    ∀ p, IsProbe p → ∃ q s', (BTree.BTreeMap.dropKit N).remove d (.key p) m s = some (q, s') ∧
      match q with
      | .unwound m' => BTree.Reachable N m' ∧ Rude d ∧ m'.abs = Spec.erase p m.abs
      | .done (m', o) => BTree.Reachable N m' ∧ o = (Spec.find p m.abs).map (·.2) ∧
          m'.abs = Spec.erase p m.abs := by
  refine ⟨fun k v => ?_, fun p hp => ?_⟩
  · have h := BTree.BTreeMap.insertD_spec N d k v m s
    rcases e : m.insertD N d k v s with _ | ⟨m' | ⟨m', o⟩, s1⟩ <;> rw [e] at h <;> dsimp only at h
    · obtain ⟨m2, e2, -⟩ := BTree.BTreeMap.insert_spec (hm.wf hN) k v
      rw [h] at e2; cases e2
    · obtain ⟨⟨o, h⟩, hr⟩ := h
      refine ⟨_, _, rfl, hm.insert h, hr, ?_⟩
      obtain ⟨m2, e2, -, h2⟩ := BTree.BTreeMap.insert_spec (hm.wf hN) k o
      rw [h] at e2
      simp only [Option.some.injEq, Prod.mk.injEq] at e2
      obtain ⟨rfl, e2⟩ := e2
      exact exchanged (hm.wf hN).sorted h2 e2
    · refine ⟨_, _, rfl, hm.insert h, ?_⟩
      obtain ⟨m2, e2, -, h2⟩ := BTree.BTreeMap.insert_spec (hm.wf hN) k v
      rw [h] at e2
      simp only [Option.some.injEq, Prod.mk.injEq] at e2
      obtain ⟨rfl, e2⟩ := e2
      exact ⟨e2, h2⟩
  · obtain ⟨m2, e2, -, h2⟩ := BTree.BTreeMap.remove_spec hN (hm.wf hN) hp
    have hr := hm.remove hp e2
    rw [BTree.BTreeMap.remove_eq_take] at e2
    rcases e3 : BTree.BTreeMap.takeD N (.key p) m with _ | ⟨m3, o⟩
    · rw [e3] at e2; cases e2
    · rw [e3] at e2
      simp only [Option.map_some, Option.some.injEq, Prod.mk.injEq] at e2
      obtain ⟨rfl, e2⟩ := e2
      rcases hd : dropOpt d (o.map (·.1)) s with ⟨_ | _, s1⟩
      · exact ⟨.done (m3, o.map (·.2)), s1, by
          simp only [Drop.Kit.remove, BTree.BTreeMap.dropKit, e3, hd], hr, e2, h2⟩
      · exact ⟨.unwound m3, s1, by simp only [Drop.Kit.remove, BTree.BTreeMap.dropKit, e3, hd], hr,
          rude_of_dropOpt hd, h2⟩

/-- If equal keys are identical, an insertion that is interrupted does nothing. -/
theorem C62_btree_equal_keys {N : Nat} (hN : 1 ≤ N) {m : BTree.BTreeMap K V}
    (hm : BTree.Reachable N m) (hK : ∀ a b : K, compare a b = .eq → a = b) {d : Dr σ K} {k : K} {v : V}
    {s s' : σ} {m' : BTree.BTreeMap K V} (h : m.insertD N d k v s = some (.unwound m', s')) :
    m'.abs = m.abs := by
  obtain ⟨q, s2, e, hq⟩ := (C62_btree_partial hN hm d s).1 k v
  rw [h] at e; cases e
  rw [hq.2.2.2, exchange_id hK]

/-- Numbers are such keys. -/
example : (∀ a b : Nat, compare a b = .eq → a = b) ∧
    (∃ m : BTree.BTreeMap Nat Nat, BTree.Reachable 6 m ∧ (m.insertD 6 rude 7 900 0).map (fun r =>
      how (fun m => m.abs) (fun x => x.1.abs) r.1) = some (false, [(3, 4), (7, 8)])) :=
  ⟨fun a b h => Nat.compare_eq_eq.1 h, _, .insert (.insert .new (k := 3) (v := 4) rfl) (k := 7) (v := 8) rfl,
    by decide +kernel⟩

/-- The first insertion is interrupted and has exchanged the key 7, the second one is not; a removal
whose destructor panics. -/
example : BTree.Reachable 1 (db 1 (dents 0 6)) ∧
    ((db 1 (dents 0 6)).insertD 1 rude ⟨7, 1⟩ 900 0).map (fun r =>
      how (fun m => m.abs) (fun x => x.1.abs) r.1) =
      some (false, [(⟨0, 0⟩, 0), (⟨4, 0⟩, 5), (⟨7, 1⟩, 1), (⟨14, 0⟩, 2), (⟨21, 0⟩, 3), (⟨28, 0⟩, 4)]) ∧
    ((db 1 (dents 0 6)).insertD 1 rude ⟨8, 1⟩ 900 0).map (fun r =>
      how (fun m => m.len) (fun x => x.1.len) r.1) = some (true, 7) ∧
    ((BTree.BTreeMap.dropKit 1).remove rude (.key (compare ⟨7, 9⟩)) (db 1 (dents 0 6)) 0).map (fun r =>
      how (fun m => m.abs.map (·.1.id)) (fun x => x.1.abs.map (·.1.id)) r.1) =
      some (false, [0, 4, 14, 21, 28]) :=
  ⟨db_reach (Nat.le_refl 1) _, by decide +kernel⟩

/-- C62 is false for `BTreeMap`: an interrupted insertion leaves a map that is neither as it was nor
as it should be. -/
theorem C62_btree_false : ∃ (m m' : BTree.BTreeMap CKey Nat) (d : Dr Nat CKey) (k : CKey) (v s : Nat),
    BTree.Reachable 6 m ∧ m.insertD 6 d k v 0 = some (.unwound m', s) ∧ m'.abs ≠ m.abs ∧
      m'.abs ≠ Spec.insert k v m.abs := by
  refine ⟨db 6 [(⟨1, 0⟩, 10)], ⟨1, some (.mk [(⟨1, 1⟩, 10)] [])⟩, rude, ⟨1, 1⟩, 11, 1,
    db_reach (by decide) _, rfl, ?_⟩
  decide +kernel

/-- C62 for `fixed::BTreeMap`: whatever the destructor does, an insertion or removal is complete. -/
theorem C62_fixed {lin : Bool} {m : Fixed.FMap K V} (hm : Fixed.Reachable lin m) (d : Dr σ K) (s : σ) :
    (∀ k v, ∃ q s', m.insertD lin d k v s = some (q, s') ∧ match q with
      | .unwound m' => Fixed.Reachable lin m' ∧ Rude d ∧ m'.toList = Spec.insert k v m.toList
      | .done (m', o) => Fixed.Reachable lin m' ∧
          o = (Spec.find (compare k) m.toList).map (·.2) ∧ m'.toList = Spec.insert k v m.toList) ∧
    ∀ p, IsProbe p → ∃ q s', (Fixed.FMap.dropKit lin).remove d p m s = some (q, s') ∧ match q with
      | .unwound m' => Fixed.Reachable lin m' ∧ Rude d ∧ m'.toList = Spec.erase p m.toList
      | .done (m', o) => Fixed.Reachable lin m' ∧ o = (Spec.find p m.toList).map (·.2) ∧
          m'.toList = Spec.erase p m.toList := by
  refine ⟨fun k v => ?_, fun p hp => ?_⟩
  · have h := Fixed.FMap.insertD_spec lin d k v m s
    obtain ⟨m2, e2, -, h2⟩ := Fixed.FMap.insert_spec (lin := lin) hm.wf k v
    rcases e : m.insertD lin d k v s with _ | ⟨m' | ⟨m', o⟩, s1⟩ <;> rw [e] at h <;> dsimp only at h
    · rw [h] at e2; cases e2
    · obtain ⟨⟨o, h⟩, hr⟩ := h
      refine ⟨_, _, rfl, hm.insert h, hr, ?_⟩
      rw [h] at e2; cases e2
      exact h2
    · refine ⟨_, _, rfl, hm.insert h, ?_⟩
      rw [h] at e2; cases e2
      exact ⟨rfl, h2⟩
  · obtain ⟨m2, e2, -, h2⟩ := Fixed.FMap.remove_spec (lin := lin) hm.wf hp
    have hr := hm.remove hp e2
    rw [Fixed.FMap.remove_eq_take] at e2
    rcases e3 : Fixed.FMap.takeD lin p m with _ | ⟨m3, o⟩
    · rw [e3] at e2; cases e2
    · rw [e3] at e2
      simp only [Option.map_some, Option.some.injEq, Prod.mk.injEq] at e2
      obtain ⟨rfl, e2⟩ := e2
      rcases hd : dropOpt d (o.map (·.1)) s with ⟨_ | _, s1⟩
      · exact ⟨.done (m3, o.map (·.2)), s1, by
          simp only [Drop.Kit.remove, Fixed.FMap.dropKit, e3, hd], hr, e2, h2⟩
      · exact ⟨.unwound m3, s1, by simp only [Drop.Kit.remove, Fixed.FMap.dropKit, e3, hd], hr,
          rude_of_dropOpt hd, h2⟩

/-- The first insertion is interrupted and has exchanged the key 7 and its value, the second one is
not; a removal whose destructor panics. -/
example : Fixed.Reachable true (df true (dents 0 6)) ∧
    ((df true (dents 0 6)).insertD true rude ⟨7, 1⟩ 900 0).map (fun r =>
      how (fun m => m.toList) (fun x => x.1.toList) r.1) =
      some (false, [(⟨0, 0⟩, 0), (⟨4, 0⟩, 5), (⟨7, 1⟩, 900), (⟨14, 0⟩, 2), (⟨21, 0⟩, 3), (⟨28, 0⟩, 4)]) ∧
    ((df true (dents 0 6)).insertD true rude ⟨8, 1⟩ 900 0).map (fun r =>
      how (fun m => m.len) (fun x => x.1.len) r.1) = some (true, 7) ∧
    ((Fixed.FMap.dropKit true).remove rude (compare ⟨7, 9⟩) (df true (dents 0 6)) 0).map (fun r =>
      how (fun m => m.toList.map (·.1.id)) (fun x => x.1.toList.map (·.1.id)) r.1) =
      some (false, [0, 4, 14, 21, 28]) :=
  ⟨df_reach true _, by decide +kernel⟩

/-! ### `extend` -/

/-- C62.  An `extend` of an `AvlMap` that a destructor interrupts has inserted all entries before some
one of them, and of that one the key only, or all. -/
theorem C62_avl_extend {m : Avl.AvlMap K V} (hm : Avl.Reachable m) (d : Dr σ K) (dv : Dr σ V)
    (es : List (K × V)) (s : σ) : ∃ q s', Avl.AvlMap.dropKit.extend d dv m es s = some (q, s') ∧
      match q with
      | .unwound m' => ∃ l1 e l2, es = l1 ++ e :: l2 ∧
          (Rude d ∧ m'.abs = (Spec.insertAll m.abs l1).map
              (fun x => if compare e.1 x.1 = .eq then (e.1, x.2) else x) ∨
            Rude dv ∧ m'.abs = Spec.insertAll m.abs (l1 ++ [e]))
      | .done m' => m'.abs = Spec.insertAll m.abs es := by
  obtain ⟨q, s', e, hq⟩ := extend_prefix (k := Avl.AvlMap.dropKit) (d := d) (dv := dv)
    (plain := Avl.AvlMap.extend) (Good := Avl.Reachable)
    (Cut := fun m a b m' => Rude d ∧
      m'.abs = m.abs.map (fun x => if compare a x.1 = .eq then (a, x.2) else x))
    (fun m => rfl) (fun a b m s hm => by
      obtain ⟨q, s', e, hq⟩ := (C62_avl_partial hm d s).1 a b
      refine ⟨q, s', e, ?_⟩
      rcases q with m' | ⟨m', o⟩
      · exact ⟨hq.2.1, hq.2.2.2⟩
      · have h := Avl.AvlMap.insertD_spec d a b m s
        rw [e] at h
        have h : m.insert a b = some (m', o) := h
        exact ⟨hq.1, fun es => by simp only [Avl.AvlMap.extend, h]⟩) es m s hm
  refine ⟨q, s', e, ?_⟩
  rcases q with m' | m'
  · obtain ⟨l1, x, l2, rfl, h⟩ := hq
    refine ⟨l1, x, l2, rfl, ?_⟩
    rcases h with ⟨m1, h1, h2, h3⟩ | ⟨h1, h2⟩
    · obtain ⟨m2, e2, -, ha⟩ := Avl.AvlMap.extend_spec hm.wf l1
      rw [h1] at e2; cases e2
      exact .inl ⟨h2, by rw [h3, ha]; rfl⟩
    · obtain ⟨m2, e2, -, ha⟩ := Avl.AvlMap.extend_spec hm.wf (l1 ++ [x])
      rw [h1] at e2; cases e2
      exact .inr ⟨h2, ha⟩
  · obtain ⟨m2, e2, -, ha⟩ := Avl.AvlMap.extend_spec hm.wf es
    have h : _ = _ := hq
    rw [h] at e2; cases e2
    exact ha

/-- The destructor of the key, and that of the value, panics at the second entry. -/
example : Avl.Reachable (da (dents 0 3)) ∧
    (Avl.AvlMap.dropKit.extend rude calm (da (dents 0 3)) [(⟨1, 1⟩, 50), (⟨7, 1⟩, 51), (⟨2, 1⟩, 52)] 0).map
      (fun r => how (fun m => m.abs) (fun m => m.abs) r.1) =
      some (false, [(⟨0, 0⟩, 0), (⟨1, 1⟩, 50), (⟨7, 1⟩, 1), (⟨14, 0⟩, 2)]) ∧
    (Avl.AvlMap.dropKit.extend calm rude (da (dents 0 3)) [(⟨1, 1⟩, 50), (⟨7, 1⟩, 51), (⟨2, 1⟩, 52)] 0).map
      (fun r => how (fun m => m.abs) (fun m => m.abs) r.1) =
      some (false, [(⟨0, 0⟩, 0), (⟨1, 1⟩, 50), (⟨7, 1⟩, 51), (⟨14, 0⟩, 2)]) :=
  ⟨da_reach _, by decide +kernel⟩

/-- C62.  The same for `BTreeMap`. -/
theorem C62_btree_extend {N : Nat} (hN : 1 ≤ N) {m : BTree.BTreeMap K V} (hm : BTree.Reachable N m)
    (d : Dr σ K) (dv : Dr σ V) (es : List (K × V)) (s : σ) :
    ∃ q s', (BTree.BTreeMap.dropKit N).extend d dv m es s = some (q, s') ∧ match q with
      | .unwound m' => ∃ l1 e l2, es = l1 ++ e :: l2 ∧
          (Rude d ∧ m'.abs = (Spec.insertAll m.abs l1).map
              (fun x => if compare e.1 x.1 = .eq then (e.1, x.2) else x) ∨
            Rude dv ∧ m'.abs = Spec.insertAll m.abs (l1 ++ [e]))
      | .done m' => m'.abs = Spec.insertAll m.abs es := by
  obtain ⟨q, s', e, hq⟩ := extend_prefix (k := BTree.BTreeMap.dropKit N) (d := d) (dv := dv)
    (plain := BTree.BTreeMap.extend N) (Good := BTree.Reachable N)
    (Cut := fun m a b m' => Rude d ∧
      m'.abs = m.abs.map (fun x => if compare a x.1 = .eq then (a, x.2) else x))
    (fun m => rfl) (fun a b m s hm => by
      obtain ⟨q, s', e, hq⟩ := (C62_btree_partial hN hm d s).1 a b
      refine ⟨q, s', e, ?_⟩
      rcases q with m' | ⟨m', o⟩
      · exact ⟨hq.2.1, hq.2.2.2⟩
      · have h := BTree.BTreeMap.insertD_spec N d a b m s
        rw [e] at h
        have h : m.insert N a b = some (m', o) := h
        exact ⟨hq.1, fun es => by simp only [BTree.BTreeMap.extend, h]⟩) es m s hm
  refine ⟨q, s', e, ?_⟩
  rcases q with m' | m'
  · obtain ⟨l1, x, l2, rfl, h⟩ := hq
    refine ⟨l1, x, l2, rfl, ?_⟩
    rcases h with ⟨m1, h1, h2, h3⟩ | ⟨h1, h2⟩
    · obtain ⟨m2, e2, -, ha⟩ := BTree.BTreeMap.extend_spec (hm.wf hN) l1
      rw [h1] at e2; cases e2
      exact .inl ⟨h2, by rw [h3, ha]⟩
    · obtain ⟨m2, e2, -, ha⟩ := BTree.BTreeMap.extend_spec (hm.wf hN) (l1 ++ [x])
      rw [h1] at e2; cases e2
      exact .inr ⟨h2, ha⟩
  · obtain ⟨m2, e2, -, ha⟩ := BTree.BTreeMap.extend_spec (hm.wf hN) es
    have h : _ = _ := hq
    rw [h] at e2; cases e2
    exact ha

example : BTree.Reachable 1 (db 1 (dents 0 4)) ∧
    ((BTree.BTreeMap.dropKit 1).extend rude calm (db 1 (dents 0 4))
      [(⟨1, 1⟩, 50), (⟨7, 1⟩, 51), (⟨2, 1⟩, 52)] 0).map (fun r => how (fun m => m.abs) (fun m => m.abs) r.1) =
      some (false, [(⟨0, 0⟩, 0), (⟨1, 1⟩, 50), (⟨7, 1⟩, 1), (⟨14, 0⟩, 2), (⟨21, 0⟩, 3)]) :=
  ⟨db_reach (Nat.le_refl 1) _, by decide +kernel⟩

/-- C62.  An `extend` of a `fixed::BTreeMap` that a destructor interrupts has inserted the entries up
to some one of them. -/
theorem C62_fixed_extend {lin : Bool} {m : Fixed.FMap K V} (hm : Fixed.Reachable lin m) (d : Dr σ K)
    (dv : Dr σ V) (es : List (K × V)) (s : σ) :
    ∃ q s', (Fixed.FMap.dropKit lin).extend d dv m es s = some (q, s') ∧ match q with
      | .unwound m' => (Rude d ∨ Rude dv) ∧ ∃ l1 e l2, es = l1 ++ e :: l2 ∧
          m'.toList = Spec.insertAll m.toList (l1 ++ [e])
      | .done m' => m'.toList = Spec.insertAll m.toList es := by
  obtain ⟨q, s', e, hq⟩ := extend_prefix (k := Fixed.FMap.dropKit lin) (d := d) (dv := dv)
    (plain := Fixed.FMap.extend lin) (Good := Fixed.Reachable lin)
    (Cut := fun m a b m' => Rude d ∧ m'.toList = Spec.insert a b m.toList)
    (fun m => rfl) (fun a b m s hm => by
      obtain ⟨q, s', e, hq⟩ := (C62_fixed hm d s).1 a b
      refine ⟨q, s', e, ?_⟩
      rcases q with m' | ⟨m', o⟩
      · exact hq.2
      · have h := Fixed.FMap.insertD_spec lin d a b m s
        rw [e] at h
        have h : m.insert lin a b = some (m', o) := h
        exact ⟨hq.1, fun es => by simp only [Fixed.FMap.extend, h]⟩) es m s hm
  refine ⟨q, s', e, ?_⟩
  rcases q with m' | m'
  · obtain ⟨l1, x, l2, rfl, h⟩ := hq
    rcases h with ⟨m1, h1, h2, h3⟩ | ⟨h1, h2⟩
    · obtain ⟨m2, e2, -, ha⟩ := Fixed.FMap.extend_spec (lin := lin) hm.wf l1
      rw [h1] at e2; cases e2
      refine ⟨.inl h2, l1, x, l2, rfl, ?_⟩
      rw [h3, ha]
      simp [Spec.insertAll]
    · obtain ⟨m2, e2, -, ha⟩ := Fixed.FMap.extend_spec (lin := lin) hm.wf (l1 ++ [x])
      rw [h1] at e2; cases e2
      exact ⟨.inr h2, l1, x, l2, rfl, ha⟩
  · obtain ⟨m2, e2, -, ha⟩ := Fixed.FMap.extend_spec (lin := lin) hm.wf es
    have h : _ = _ := hq
    rw [h] at e2; cases e2
    exact ha

example : Fixed.Reachable true (df true (dents 0 4)) ∧
    ((Fixed.FMap.dropKit true).extend rude calm (df true (dents 0 4))
      [(⟨1, 1⟩, 50), (⟨7, 1⟩, 51), (⟨2, 1⟩, 52)] 0).map
        (fun r => how (fun m => m.toList) (fun m => m.toList) r.1) =
      some (false, [(⟨0, 0⟩, 0), (⟨1, 1⟩, 50), (⟨7, 1⟩, 51), (⟨14, 0⟩, 2), (⟨21, 0⟩, 3)]) :=
  ⟨df_reach true _, by decide +kernel⟩

end Verif.Props
