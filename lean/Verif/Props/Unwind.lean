import Verif.Unwind.AvlAlone
import Verif.Unwind.FixedSpec
import Verif.Unwind.FixedHole
/-!
# What a panicking `Clone` can do

`Arc::make_mut` clones the keys and values of a shared node.  `Clone` is any `Cl σ K V`: it sees
the entries of the node, sees and changes an arbitrary state `σ`, and may panic whenever it likes.
A program (`Kit.run`) holds any number of maps, each call is given a `Clone` of its own, and every
panic of `Clone` is caught.  An outer `none` is a panic of the crate's own (a failed assertion, an
index out of bounds, an arithmetic underflow) or undefined behaviour.
-/
set_option linter.unusedVariables false
namespace Verif.Unwind
open Std

/-- Every probe of the program is lawful. -/
def Kit.Cmd.Lawful {σ : Type} {K V W : Type} [Ord K] (okW : W → Prop) : Kit.Cmd σ K V W → Prop
  | .getMut _ _ p _ => IsProbe p
  | .take _ _ w => okW w
  | _ => True

end Verif.Unwind

namespace Verif.DemoU
open Verif.Unwind Verif.Wild

/-- `Clone` that never panics; the state counts the calls. -/
def calm : Cl Nat Nat Nat := fun _ s => (false, s + 1)

/-- `Clone` that panics at every fifth call. -/
def tired : Cl Nat Nat Nat := fun _ s => (s % 5 == 4, s + 1)

/-- `Clone` that panics at the key `j`. -/
def fussy (j : Nat) : Cl Nat Nat Nat := fun es s => (es.any (·.1 == j), s + 1)

theorem calm_fair : ¬ Bad calm := by
  rintro ⟨es, s, h⟩
  exact absurd h (by simp [calm])

theorem tired_bad : Bad tired := ⟨[], 4, rfl⟩

/-- Entries in a scrambled order. -/
def uents (n : Nat) : List (Nat × Nat) := (List.range n).map (fun i => (i * 7 % 31, i))

/-- A program, the removals being named by `f`; `Clone` panics in several calls. -/
def uprog {W : Type} (f : Nat → W) : List (Kit.Cmd Nat Nat Nat W) :=
  [.extend 0 tired (uents 4), .extend 0 calm (uents 20), .clone 0 1, .insert 0 tired 100 0,
   .insert 0 tired 101 0, .clone 1 2, .extend 1 tired [(200, 0), (201, 1), (3, 2), (4, 5), (203, 3)],
   .take 0 calm (f 14), .getMut 2 tired (compare 7) (· + 100), .clone 0 3,
   .getMut 3 tired (compare 21) (· + 100), .take 2 calm (f 0), .clear 1]

theorem uprog_fair {W : Type} {okW : W → Prop} {f : Nat → W} (h : ∀ n, okW (f n)) :
    ∀ cmd ∈ uprog f, cmd.Fair okW := by
  simp only [uprog, List.mem_cons, List.not_mem_nil, or_false, forall_eq_or_imp, forall_eq,
    Kit.Cmd.Fair]
  exact ⟨trivial, trivial, trivial, trivial, trivial, trivial, trivial, ⟨h 14, calm_fair⟩,
    isProbe_compare 7, trivial, isProbe_compare 21, ⟨h 0, calm_fair⟩, trivial⟩

/-- How an operation ended, and the keys it left. -/
def how {N R A : Type} (f : N → A) (g : R → A) : Ends N R → Bool × A
  | .unwound n => (false, f n)
  | .done r => (true, g r)

/-- A shared `AvlMap`. -/
def ua (es : List (Nat × Nat)) : Avl.SMap Nat Nat :=
  .share (.ofMap ((Avl.AvlMap.extend .new es).getD .new))

theorem ua_reach (es : List (Nat × Nat)) : Avl.Reachable (ua es).erase := by
  obtain ⟨m, e, -⟩ := Avl.AvlMap.extend_spec (Avl.Reachable.new (K := Nat) (V := Nat)).wf es
  rw [ua, Avl.SMap.erase_share, Avl.SMap.erase_ofMap, e]
  exact Avl.Reachable.extend .new e

/-- A `BTreeMap`. -/
def ub (N : Nat) (es : List (Nat × Nat)) : BTree.BTreeMap Nat Nat :=
  (BTree.BTreeMap.extend N .new es).getD .new

theorem ub_reach {N : Nat} (hN : 1 ≤ N) (es : List (Nat × Nat)) : BTree.Reachable N (ub N es) := by
  obtain ⟨m, e, -⟩ := BTree.BTreeMap.extend_spec
    ((BTree.Reachable.new (N := N) (K := Nat) (V := Nat)).wf hN) es
  rw [ub, e]
  exact BTree.Reachable.extend .new e

/-- A `fixed::BTreeMap`. -/
def uf (lin : Bool) (es : List (Nat × Nat)) : Fixed.FMap Nat Nat :=
  (Fixed.FMap.extend lin .new es).getD .new

theorem uf_reach (lin : Bool) (es : List (Nat × Nat)) : Fixed.Reachable lin (uf lin es) := by
  obtain ⟨m, e, -⟩ := Fixed.FMap.extend_spec (lin := lin)
    (Fixed.Reachable.new (lin := lin) (K := Nat) (V := Nat)).wf es
  rw [uf, e]
  exact Fixed.Reachable.extend .new e

/-- The entries with the keys of `ks`. -/
def keyed (ks : List Nat) : List (Nat × Nat) := ks.map (fun k => (k, 0))

/-- Map 0 with the keys of `ks`, cloned, loses `a` while `Clone` panics at `j`; then the calls `cs`. -/
def mishap {W : Type} (f : Nat → W) (ks : List Nat) (j a : Nat)
    (cs : List (Kit.Cmd Nat Nat Nat W)) : List (Kit.Cmd Nat Nat Nat W) :=
  [.extend 0 calm (keyed ks), .clone 0 1, .take 0 (fussy j) (f a)] ++ cs

/-- `AvlMap`: a panic while 7 is removed, and then 3 is removed. -/
def aprog (cs : List (Kit.Cmd Nat Nat Nat (Which Nat))) : List (Kit.Cmd Nat Nat Nat (Which Nat)) :=
  mishap (fun k => .key (compare k)) [7, 12, 8, 6, 5, 3, 14] 12 7 cs

/-- `BTreeMap`: a panic while 0 is removed. -/
def bprog' (cs : List (Kit.Cmd Nat Nat Nat (Which Nat))) : List (Kit.Cmd Nat Nat Nat (Which Nat)) :=
  mishap (fun k => .key (compare k)) (List.range 12) 11 0 cs

/-- `fixed::BTreeMap`: a panic while 11 is removed. -/
def fprog' (cs : List (Kit.Cmd Nat Nat Nat (Nat → Ordering))) :
    List (Kit.Cmd Nat Nat Nat (Nat → Ordering)) :=
  mishap (fun k => compare k) (List.range 12) 0 11 cs

theorem mishap_lawful {W : Type} {okW : W → Prop} {f : Nat → W} (h : ∀ n, okW (f n)) (ks : List Nat)
    (j a : Nat) {cs : List (Kit.Cmd Nat Nat Nat W)} (hc : ∀ cmd ∈ cs, cmd.Lawful okW) :
    ∀ cmd ∈ mishap f ks j a cs, cmd.Lawful okW := by
  intro cmd hm
  simp only [mishap, List.cons_append, List.nil_append, List.mem_cons] at hm
  rcases hm with rfl | rfl | rfl | hm
  · trivial
  · trivial
  · exact h a
  · exact hc _ hm

/-- `fixed::BTreeMap`: a panic while two children of a full root are merged leaves it with eleven
separators and eleven children; then the third child is filled. -/
def hole : List (Kit.Cmd Nat Nat Nat (Nat → Ordering)) :=
  [.extend 0 calm (keyed ((List.range 82).map (10 * ·))), .take 0 calm (compare 0), .clone 0 1,
   .take 0 (fussy 70) (compare 10), .extend 0 calm (keyed [141, 142, 143, 144, 145])]

theorem hole_lawful : ∀ cmd ∈ hole, cmd.Lawful IsProbe := by
  simp only [hole, List.mem_cons, List.not_mem_nil, or_false, forall_eq_or_imp, forall_eq,
    Kit.Cmd.Lawful]
  exact ⟨trivial, isProbe_compare 0, trivial, isProbe_compare 10, trivial⟩

/-- What it leaves. -/
@[irreducible] def holed : Kit.Maps (Fixed.FMap Nat Nat) × Nat :=
  ((Fixed.FMap.kit true).run (fun _ => Fixed.FMap.new) 0 hole).getD (fun _ => Fixed.FMap.new, 0)

theorem holed_eq : (Fixed.FMap.kit true).run (fun _ => Fixed.FMap.new) 0 hole = some holed := by
  have : ((Fixed.FMap.kit true).run (fun _ => Fixed.FMap.new) 0 hole).isSome := by decide +kernel
  exact (Option.some_get this).symm.trans (by rw [holed, Option.get_eq_getD])

end Verif.DemoU

namespace Verif.Props
open Std Verif.Unwind Verif.Wild Verif.DemoU
universe w
variable {σ : Type w} {K V : Type} [Ord K] [TransOrd K]

/-! ## `AvlMap` -/

/-- C58.  Programs of insertions, mutable lookups and `extend`s with a `Clone` that may panic, of
removals with one that does not, and of clones: the crate never panics by itself, and every map is
one that could have been made with no panic at all. -/
theorem C58_avl_programs (cs : List (Kit.Cmd σ K V (Which K))) (hc : ∀ cmd ∈ cs, cmd.Fair Which.Ok)
    (s : σ) : ∃ st s', Avl.SMap.kit.run (fun _ => Avl.SMap.new) s cs = some (st, s') ∧
      ∀ i, Avl.Reachable (st i).erase ∧ Sorted (st i).ents ∧ (st i).len = (st i).ents.length := by
  obtain ⟨st, s', e, h⟩ := Kit.run_good (σ := σ) Avl.SMap.kit_keeps cs (fun _ => Avl.SMap.new) s hc
    (fun _ => .new)
  exact ⟨st, s', e, fun i => ⟨h i, (h i).wf.sorted, (h i).wf.len_eq⟩⟩

/-- The program of the example is such a program; `Clone` panics in several of its calls. -/
example : (∀ cmd ∈ uprog (fun k => Which.key (compare k)), cmd.Fair Which.Ok) ∧
    (Avl.SMap.kit.run (fun _ => Avl.SMap.new) 0 (uprog (fun k => .key (compare k)))).map (fun r =>
      (List.range 4).map (fun i => (r.1 i).ents.map (·.1))) =
    some [[0, 1, 2, 4, 5, 7, 8, 9, 11, 12, 15, 18, 19, 21, 22, 25, 26, 28, 29, 101], [],
      [1, 2, 4, 5, 7, 8, 9, 11, 12, 14, 15, 18, 19, 21, 22, 25, 26, 28, 29],
      [0, 1, 2, 4, 5, 7, 8, 9, 11, 12, 15, 18, 19, 21, 22, 25, 26, 28, 29, 101]] :=
  ⟨uprog_fair (fun n => isProbe_compare n), by decide +kernel⟩

/-- C58.  Whatever `Clone` does, `insert` and `get_mut` leave the map as it was or do exactly what
they should, and `extend` does what it should for all entries before some one of them, or for
all.  With a `Clone` that never panics, all of them do what they should. -/
theorem C58_avl {m : Avl.SMap K V} (hm : Avl.Reachable m.erase) (c : Cl σ K V) (s : σ) :
    (∀ k v, ∃ q s', m.insertC c k v s = some (q, s') ∧ match q with
      | .unwound m' => m'.erase = m.erase ∧ Bad c
      | .done (m', o) => Avl.Reachable m'.erase ∧ o = (Spec.find (compare k) m.ents).map (·.2) ∧
          m'.ents = Spec.insert k v m.ents) ∧
    (∀ p g, IsProbe p → ∃ q s', m.getMutC c p g s = some (q, s') ∧ match q with
      | .unwound m' => m'.erase = m.erase ∧ Bad c
      | .done (m', b) => Avl.Reachable m'.erase ∧ b = (Spec.find p m.ents).isSome ∧
          m'.ents = m.ents.map (fun e => if p e.1 = .eq then (e.1, g e.2) else e)) ∧
    ∀ es, ∃ q s', Avl.SMap.kit.extend c m es s = some (q, s') ∧ match q with
      | .unwound m' => Avl.Reachable m'.erase ∧ Bad c ∧
          ∃ l1 e l2, es = l1 ++ e :: l2 ∧ m'.ents = Spec.insertAll m.ents l1
      | .done m' => Avl.Reachable m'.erase ∧ m'.ents = Spec.insertAll m.ents es := by
  refine ⟨fun k v => ?_, fun p g hp => ?_, fun es => ?_⟩
  · obtain ⟨q, s', e, hq⟩ := Avl.SMap.insertC_spec hm.wf c k v s
    refine ⟨q, s', e, ?_⟩
    rcases q with m' | ⟨m', o⟩
    · exact hq
    · obtain ⟨m2, e2, -, h2⟩ := Avl.AvlMap.insert_spec hm.wf k v
      have := hq.symm.trans e2
      simp only [Option.some.injEq, Prod.mk.injEq] at this
      exact ⟨hm.insert hq, this.2, by rw [← this.1] at h2; exact h2⟩
  · obtain ⟨q, s', e, hq⟩ := Avl.SMap.getMutC_spec m c p g s
    refine ⟨q, s', e, ?_⟩
    rcases q with m' | ⟨m', o⟩
    · exact hq
    · have hr := hm.getMut hp (g := g)
      obtain ⟨-, h1, h2⟩ := Avl.AvlMap.getMut_spec hm.wf hp g
      rw [hq] at h1 h2 hr
      exact ⟨hr, h2, h1⟩
  · obtain ⟨q, s', e, hq⟩ := Kit.extend_prefix (k := Avl.SMap.kit) (α := Avl.SMap.erase)
      (plain := Avl.AvlMap.extend) (Good := fun m => Avl.Reachable m.erase) (c := c)
      (fun m => rfl) (fun a b m s hm => by
        obtain ⟨q, s', e, hq⟩ := Avl.SMap.insertC_spec hm.wf c a b s
        refine ⟨q, s', e, ?_⟩
        rcases q with m' | ⟨m', o⟩
        · exact hq
        · exact ⟨hm.insert hq, fun es => by simp only [Avl.AvlMap.extend, hq]⟩) es m s hm
    refine ⟨q, s', e, ?_⟩
    rcases q with m' | m'
    · obtain ⟨⟨l1, x, l2, rfl, h⟩, hb⟩ := hq
      obtain ⟨m2, e2, -, h2⟩ := Avl.AvlMap.extend_spec hm.wf l1
      rw [h] at e2; cases e2
      exact ⟨hm.extend h, hb, l1, x, l2, rfl, h2⟩
    · obtain ⟨m2, e2, -, h2⟩ := Avl.AvlMap.extend_spec hm.wf es
      have h : _ = _ := hq
      rw [h] at e2; cases e2
      exact ⟨hm.extend h, h2⟩

/-- An insertion that meets the node of `Clone`'s displeasure and one that does not; an `extend`
interrupted at its second entry. -/
example : Avl.Reachable (ua (uents 12)).erase ∧
    ((ua (uents 12)).insertC (fussy 1) 3 0 0).map (fun r => how (fun m => (m.ents.map (·.1), m.len))
      (fun r => (r.1.ents.map (·.1), r.1.len)) r.1) =
      some (false, [0, 1, 4, 7, 8, 11, 14, 15, 18, 21, 25, 28], 12) ∧
    ((ua (uents 12)).insertC (fussy 8) 3 0 0).map (fun r => how (fun m => (m.ents.map (·.1), m.len))
      (fun r => (r.1.ents.map (·.1), r.1.len)) r.1) =
      some (true, [0, 1, 3, 4, 7, 8, 11, 14, 15, 18, 21, 25, 28], 13) ∧
    (Avl.SMap.kit.extend tired (ua (uents 12)) [(3, 0), (30, 0), (27, 0)] 5).map (fun r =>
      how (fun m => (m.ents.map (·.1), m.len)) (fun m => (m.ents.map (·.1), m.len)) r.1) =
      some (false, [0, 1, 3, 4, 7, 8, 11, 14, 15, 18, 21, 25, 28], 13) :=
  ⟨ua_reach _, by decide +kernel⟩

/-- C59, what is left of it.  Whatever `Clone` does, a removal does exactly what it should, or
leaves some of the entries, in order, and `len` as it was. -/
theorem C59_avl_partial {m : Avl.SMap K V} (hm : Avl.Reachable m.erase) (c : Cl σ K V)
    {w : Which K} (hw : w.Ok) (s : σ) :
    ∃ q s', m.takeC c w s = some (q, s') ∧ match q with
      | .unwound m' => m'.ents.Sublist m.ents ∧ m'.len = m.len ∧ Bad c
      | .done (m', o) => Avl.Reachable m'.erase ∧ match w with
        | .key p => o = Spec.find p m.ents ∧ m'.ents = Spec.erase p m.ents
        | .first => o = m.ents.head? ∧ m'.ents = m.ents.tail
        | .last => o = m.ents.getLast? ∧ m'.ents = m.ents.dropLast := by
  obtain ⟨q, s', e, hq⟩ := Avl.SMap.takeC_spec hm.wf c hw s
  refine ⟨q, s', e, ?_⟩
  rcases q with m' | ⟨m', o⟩
  · exact hq
  · cases w with
    | key p =>
      obtain ⟨m2, e2, -, h2⟩ := Avl.AvlMap.removeEntry_spec hm.wf hw
      have hq' : m.erase.removeEntry p = some (m'.erase, o) := hq
      have := hq'.symm.trans e2
      simp only [Option.some.injEq, Prod.mk.injEq] at this
      exact ⟨hm.removeEntry hw hq', this.2, by rw [← this.1] at h2; exact h2⟩
    | first =>
      obtain ⟨m2, e2, -, h2⟩ := Avl.AvlMap.popFirst_spec hm.wf
      have hq' : m.erase.popFirst = some (m'.erase, o) := hq
      have := hq'.symm.trans e2
      simp only [Option.some.injEq, Prod.mk.injEq] at this
      exact ⟨hm.popFirst hq', this.2, by rw [← this.1] at h2; exact h2⟩
    | last =>
      obtain ⟨m2, e2, -, h2⟩ := Avl.AvlMap.popLast_spec hm.wf
      have hq' : m.erase.popLast = some (m'.erase, o) := hq
      have := hq'.symm.trans e2
      simp only [Option.some.injEq, Prod.mk.injEq] at this
      exact ⟨hm.popLast hq', this.2, by rw [← this.1] at h2; exact h2⟩

/-- The removal of 7 when the clone of 12 panics: 8, 12 and 14 are gone, and `len` is still 7. -/
example : Avl.Reachable (ua (keyed [7, 12, 8, 6, 5, 3, 14])).erase ∧
    (ua (keyed [7, 12, 8, 6, 5, 3, 14])).ents.map (·.1) = [3, 5, 6, 7, 8, 12, 14] ∧
    ((ua (keyed [7, 12, 8, 6, 5, 3, 14])).takeC (fussy 12) (.key (compare 7)) 0).map (fun r =>
      how (fun m => (m.ents.map (·.1), m.len)) (fun r => (r.1.ents.map (·.1), r.1.len)) r.1) =
      some (false, [3, 5, 6], 7) ∧
    ((ua (keyed [7, 12, 8, 6, 5, 3, 14])).takeC (fussy 5) .last 0).map (fun r =>
      how (fun m => (m.ents.map (·.1), m.len)) (fun r => (r.1.ents.map (·.1), r.1.len)) r.1) =
      some (true, [3, 5, 6, 7, 8, 12], 6) :=
  ⟨ua_reach _, by decide +kernel⟩

/-- C59 is false for `AvlMap`.  A removal interrupted by a panic of `Clone` can leave a map whose
`len` is not the number of its entries, and on which a later removal panics, although every
comparison is lawful. -/
theorem C59_avl_false : (∃ (cs : List (Kit.Cmd Nat Nat Nat (Which Nat)))
      (st : Kit.Maps (Avl.SMap Nat Nat)) (s' : Nat), (∀ cmd ∈ cs, cmd.Lawful Which.Ok) ∧
      Avl.SMap.kit.run (fun _ => Avl.SMap.new) 0 cs = some (st, s') ∧
      (st 0).len ≠ (st 0).ents.length) ∧
    ∃ cs : List (Kit.Cmd Nat Nat Nat (Which Nat)), (∀ cmd ∈ cs, cmd.Lawful Which.Ok) ∧
      Avl.SMap.kit.run (fun _ => Avl.SMap.new) 0 cs = none := by
  have hl : ∀ cs : List (Kit.Cmd Nat Nat Nat (Which Nat)), (∀ cmd ∈ cs, cmd.Lawful Which.Ok) →
      ∀ cmd ∈ aprog cs, cmd.Lawful Which.Ok :=
    fun cs => mishap_lawful (f := fun k => Which.key (compare k)) (fun n => isProbe_compare n) _ _ _
  refine ⟨?_, aprog [.take 0 calm (.key (compare 3))], hl _ ?_, by
    rw [← Option.isNone_iff_eq_none]; decide +kernel⟩
  · have h : ((Avl.SMap.kit.run (fun _ => Avl.SMap.new) 0 (aprog [])).map
        (fun r => ((r.1 0).len, (r.1 0).ents.length))) = some (7, 3) := by decide +kernel
    obtain ⟨⟨st, s'⟩, e, h⟩ := Option.map_eq_some_iff.1 h
    simp only [Prod.mk.injEq] at h
    exact ⟨_, st, s', hl [] (by simp), e, by omega⟩
  · simp only [List.mem_singleton, forall_eq]
    exact isProbe_compare 3

/-- C59.  On an `AvlMap` none of whose nodes is shared, removals, insertions and mutable lookups
never call `Clone` (its state `s` stays), do exactly what they should, and share nothing. -/
theorem C59_avl_alone {m : Avl.AvlMap K V} (hm : Avl.Reachable m) (c : Cl σ K V) (s : σ) :
    (∀ w : Which K, w.Ok → ∃ m' o,
      (Avl.SMap.ofMap m).takeC c w s = some (.done (Avl.SMap.ofMap m', o), s) ∧
      Avl.Reachable m' ∧ match w with
        | .key p => o = Spec.find p m.abs ∧ m'.abs = Spec.erase p m.abs
        | .first => o = m.abs.head? ∧ m'.abs = m.abs.tail
        | .last => o = m.abs.getLast? ∧ m'.abs = m.abs.dropLast) ∧
    (∀ k v, ∃ m', (Avl.SMap.ofMap m).insertC c k v s =
        some (.done (Avl.SMap.ofMap m', (Spec.find (compare k) m.abs).map (·.2)), s) ∧
      Avl.Reachable m' ∧ m'.abs = Spec.insert k v m.abs) ∧
    ∀ p g, IsProbe p → ∃ m', (Avl.SMap.ofMap m).getMutC c p g s =
        some (.done (Avl.SMap.ofMap m', (Spec.find p m.abs).isSome), s) ∧
      Avl.Reachable m' ∧ m'.abs = m.abs.map (fun e => if p e.1 = .eq then (e.1, g e.2) else e) := by
  refine ⟨fun w hw => ?_, fun k v => ?_, fun p g hp => ?_⟩
  · rw [Avl.SMap.takeC_alone]
    cases w with
    | key p =>
      obtain ⟨m', e, -, h⟩ := Avl.AvlMap.removeEntry_spec hm.wf hw
      exact ⟨m', _, by simp only [Avl.AvlMap.take, e]; rfl, hm.removeEntry hw e, rfl, h⟩
    | first =>
      obtain ⟨m', e, -, h⟩ := Avl.AvlMap.popFirst_spec hm.wf
      exact ⟨m', _, by simp only [Avl.AvlMap.take, e]; rfl, hm.popFirst e, rfl, h⟩
    | last =>
      obtain ⟨m', e, -, h⟩ := Avl.AvlMap.popLast_spec hm.wf
      exact ⟨m', _, by simp only [Avl.AvlMap.take, e]; rfl, hm.popLast e, rfl, h⟩
  · obtain ⟨m', e, -, h⟩ := Avl.AvlMap.insert_spec hm.wf k v
    exact ⟨m', by rw [Avl.SMap.insertC_alone, e]; rfl, hm.insert e, h⟩
  · obtain ⟨-, h1, h2⟩ := Avl.AvlMap.getMut_spec hm.wf hp g
    exact ⟨_, by rw [Avl.SMap.getMutC_alone, ← h2]; rfl, hm.getMut hp, h1⟩

/-- The map of the witness, not shared: the removal of 7 does not call `Clone`. -/
example : ((Avl.SMap.ofMap (ua (keyed [7, 12, 8, 6, 5, 3, 14])).erase).takeC (fussy 12)
      (.key (compare 7)) 0).map (fun r => (how (fun m => (m.ents.map (·.1), m.len))
        (fun r => (r.1.ents.map (·.1), r.1.len)) r.1, r.2)) =
      some ((true, [3, 5, 6, 8, 12, 14], 6), 0) := by decide +kernel

/-! ## `BTreeMap` -/

@[inherit_doc C58_avl_programs]
theorem C58_btree_programs {N : Nat} (hN : 1 ≤ N) (cs : List (Kit.Cmd σ K V (Which K)))
    (hc : ∀ cmd ∈ cs, cmd.Fair Which.Ok) (s : σ) :
    ∃ st s', (BTree.BTreeMap.kit N).run (fun _ => BTree.BTreeMap.new) s cs = some (st, s') ∧
      ∀ i, BTree.Reachable N (st i) ∧ Sorted (st i).abs ∧ (st i).len = (st i).abs.length := by
  obtain ⟨st, s', e, h⟩ := Kit.run_good (σ := σ) (BTree.BTreeMap.kit_keeps hN) cs
    (fun _ => BTree.BTreeMap.new) s hc (fun _ => .new)
  exact ⟨st, s', e, fun i => ⟨h i, ((h i).wf hN).sorted, ((h i).wf hN).inv.len⟩⟩

/-- The program of the example is such a program; `Clone` panics in several of its calls. -/
example : (∀ cmd ∈ uprog (fun k => Which.key (compare k)), cmd.Fair Which.Ok) ∧
    ((BTree.BTreeMap.kit 1).run (fun _ => BTree.BTreeMap.new) 0
      (uprog (fun k => .key (compare k)))).map (fun r =>
        (List.range 4).map (fun i => (r.1 i).abs.map (·.1))) =
    some [[0, 1, 2, 4, 5, 7, 8, 9, 11, 12, 15, 18, 19, 21, 22, 25, 26, 28, 29, 101], [],
      [1, 2, 4, 5, 7, 8, 9, 11, 12, 14, 15, 18, 19, 21, 22, 25, 26, 28, 29],
      [0, 1, 2, 4, 5, 7, 8, 9, 11, 12, 15, 18, 19, 21, 22, 25, 26, 28, 29, 101]] :=
  ⟨uprog_fair (fun n => isProbe_compare n), by decide +kernel⟩

@[inherit_doc C58_avl]
theorem C58_btree {N : Nat} (hN : 1 ≤ N) {m : BTree.BTreeMap K V} (hm : BTree.Reachable N m)
    (c : Cl σ K V) (s : σ) :
    (∀ k v, ∃ q s', m.insertC N c k v s = some (q, s') ∧ match q with
      | .unwound m' => m' = m ∧ Bad c
      | .done (m', o) => BTree.Reachable N m' ∧ o = (Spec.find (compare k) m.abs).map (·.2) ∧
          m'.abs = Spec.insert k v m.abs) ∧
    (∀ p g, IsProbe p → ∃ q s', m.getMutC c p g s = some (q, s') ∧ match q with
      | .unwound m' => m' = m ∧ Bad c
      | .done (m', b) => BTree.Reachable N m' ∧ b = (Spec.find p m.abs).isSome ∧
          m'.abs = m.abs.map (fun e => if p e.1 = .eq then (e.1, g e.2) else e)) ∧
    ∀ es, ∃ q s', (BTree.BTreeMap.kit N).extend c m es s = some (q, s') ∧ match q with
      | .unwound m' => BTree.Reachable N m' ∧ Bad c ∧
          ∃ l1 e l2, es = l1 ++ e :: l2 ∧ m'.abs = Spec.insertAll m.abs l1
      | .done m' => BTree.Reachable N m' ∧ m'.abs = Spec.insertAll m.abs es := by
  have hw := hm.wf hN
  refine ⟨fun k v => ?_, fun p g hp => ?_, fun es => ?_⟩
  · obtain ⟨m2, e2, -, h2⟩ := BTree.BTreeMap.insert_spec hw k v
    obtain ⟨q, s', e, hq⟩ := BTree.BTreeMap.insertC_spec m c k v s e2
    refine ⟨q, s', e, ?_⟩
    rcases q with m' | ⟨m', o⟩
    · exact hq
    · cases hq
      exact ⟨hm.insert e2, rfl, h2⟩
  · obtain ⟨q, s', e, hq⟩ := BTree.BTreeMap.getMutC_spec m c p g s
    refine ⟨q, s', e, ?_⟩
    rcases q with m' | ⟨m', o⟩
    · exact hq
    · have hr := hm.getMut hp (g := g)
      obtain ⟨-, h1, -, h2⟩ := BTree.BTreeMap.getMut_spec hw hp g
      rw [hq] at h1 h2 hr
      exact ⟨hr, h2, h1⟩
  · obtain ⟨q, s', e, hq⟩ := Kit.extend_prefix (k := BTree.BTreeMap.kit N) (α := id)
      (plain := BTree.BTreeMap.extend N) (Good := BTree.Reachable N) (c := c)
      (fun m => rfl) (fun a b m s hm => by
        obtain ⟨m2, e2, -, h2⟩ := BTree.BTreeMap.insert_spec (hm.wf hN) a b
        obtain ⟨q, s', e, hq⟩ := BTree.BTreeMap.insertC_spec m c a b s e2
        refine ⟨q, s', e, ?_⟩
        rcases q with m' | ⟨m', o⟩
        · exact hq
        · cases hq
          exact ⟨hm.insert e2, fun es => by simp only [BTree.BTreeMap.extend, id, e2]⟩) es m s hm
    refine ⟨q, s', e, ?_⟩
    rcases q with m' | m'
    · obtain ⟨⟨l1, x, l2, rfl, h⟩, hb⟩ := hq
      obtain ⟨m2, e2, -, h2⟩ := BTree.BTreeMap.extend_spec hw l1
      simp only [id] at h
      rw [h] at e2; cases e2
      exact ⟨hm.extend h, hb, l1, x, l2, rfl, h2⟩
    · obtain ⟨m2, e2, -, h2⟩ := BTree.BTreeMap.extend_spec hw es
      simp only [id] at hq
      rw [hq] at e2; cases e2
      exact ⟨hm.extend hq, h2⟩

/-- An insertion that meets the node of `Clone`'s displeasure and one that does not; an `extend`
interrupted at its second entry. -/
example : BTree.Reachable 1 (ub 1 (uents 12)) ∧
    ((ub 1 (uents 12)).insertC 1 (fussy 4) 3 0 0).map (fun r => how (fun m => (m.abs.map (·.1), m.len))
      (fun r => (r.1.abs.map (·.1), r.1.len)) r.1) =
      some (false, [0, 1, 4, 7, 8, 11, 14, 15, 18, 21, 25, 28], 12) ∧
    ((ub 1 (uents 12)).insertC 1 (fussy 15) 3 0 0).map (fun r => how (fun m => (m.abs.map (·.1), m.len))
      (fun r => (r.1.abs.map (·.1), r.1.len)) r.1) =
      some (true, [0, 1, 3, 4, 7, 8, 11, 14, 15, 18, 21, 25, 28], 13) ∧
    ((BTree.BTreeMap.kit 1).extend tired (ub 1 (uents 12)) [(3, 0), (30, 0), (27, 0)] 6).map (fun r =>
      how (fun m => (m.abs.map (·.1), m.len)) (fun m => (m.abs.map (·.1), m.len)) r.1) =
      some (false, [0, 1, 3, 4, 7, 8, 11, 14, 15, 18, 21, 25, 28], 13) :=
  ⟨ub_reach (Nat.le_refl 1) _, by decide +kernel⟩

@[inherit_doc C59_avl_partial]
theorem C59_btree_partial {N : Nat} (hN : 1 ≤ N) {m : BTree.BTreeMap K V} (hm : BTree.Reachable N m)
    (c : Cl σ K V) {w : Which K} (hw : w.Ok) (s : σ) :
    ∃ q s', m.takeC N c w s = some (q, s') ∧ match q with
      | .unwound m' => m'.abs.Sublist m.abs ∧ m'.len = m.len ∧ Bad c
      | .done (m', o) => BTree.Reachable N m' ∧ match w with
        | .key p => o.map (·.2) = (Spec.find p m.abs).map (·.2) ∧ m'.abs = Spec.erase p m.abs
        | .first => o = m.abs.head? ∧ m'.abs = m.abs.tail
        | .last => o = m.abs.getLast? ∧ m'.abs = m.abs.dropLast := by
  obtain ⟨x, hx, hr⟩ := BTree.BTreeMap.take_reach hN hm hw
  obtain ⟨q, s', e, hq⟩ := BTree.BTreeMap.takeC_spec hN (hm.wf hN).inv c w hx s
  refine ⟨q, s', e, ?_⟩
  rcases q with m' | ⟨m', o⟩
  · exact hq
  · cases hq
    refine ⟨hr, ?_⟩
    cases w with
    | key p =>
      obtain ⟨m2, e2, -, h2⟩ := BTree.BTreeMap.remove_spec hN (hm.wf hN) hw
      have h3 : m.remove N p = some (m', o.map (·.2)) := by
        simp only [BTree.BTreeMap.take] at hx
        simp only [BTree.BTreeMap.remove]
        by_cases h : m.containsKey p = true
        · rw [if_pos h] at hx ⊢; rw [hx]; rfl
        · rw [if_neg h] at hx ⊢; cases hx; rfl
      have := h3.symm.trans e2
      simp only [Option.some.injEq, Prod.mk.injEq] at this
      exact ⟨this.2, by rw [← this.1] at h2; exact h2⟩
    | first =>
      obtain ⟨m2, e2, -, h2⟩ := BTree.BTreeMap.popFirst_spec hN (hm.wf hN)
      have hx' : m.popFirst N = _ := hx
      have := hx'.symm.trans e2
      simp only [Option.some.injEq, Prod.mk.injEq] at this
      exact ⟨this.2, by rw [← this.1] at h2; exact h2⟩
    | last =>
      obtain ⟨m2, e2, -, h2⟩ := BTree.BTreeMap.popLast_spec hN (hm.wf hN)
      have hx' : m.popLast N = _ := hx
      have := hx'.symm.trans e2
      simp only [Option.some.injEq, Prod.mk.injEq] at this
      exact ⟨this.2, by rw [← this.1] at h2; exact h2⟩

/-- The removal of 0 when the clone of 11 panics: half of the entries are gone, and `len` is still
12.  The removal of 7 when the clone of its left neighbour panics. -/
example : BTree.Reachable 5 (ub 5 (keyed (List.range 12))) ∧
    ((ub 5 (keyed (List.range 12))).takeC 5 (fussy 11) (.key (compare 0)) 0).map (fun r =>
      how (fun m => (m.abs.map (·.1), m.len)) (fun r => (r.1.abs.map (·.1), r.1.len)) r.1) =
      some (false, [6, 7, 8, 9, 10, 11], 12) ∧
    ((ub 5 (keyed (List.range 18))).takeC 5 (fussy 0) (.key (compare 7)) 0).map (fun r =>
      how (fun m => (m.abs.map (·.1), m.len)) (fun r => (r.1.abs.map (·.1), r.1.len)) r.1) =
      some (false, [6, 8, 9, 10, 11, 12, 13, 14, 15, 16, 17], 18) :=
  ⟨ub_reach (by decide) _, by decide +kernel⟩

/-- C59 is false for `BTreeMap` (here with its default width).  A removal interrupted by a panic of
`Clone` can leave a map whose `len` is not the number of its entries, and on which a later removal
panics, although every comparison is lawful. -/
theorem C59_btree_false : (∃ (cs : List (Kit.Cmd Nat Nat Nat (Which Nat)))
      (st : Kit.Maps (BTree.BTreeMap Nat Nat)) (s' : Nat), (∀ cmd ∈ cs, cmd.Lawful Which.Ok) ∧
      (BTree.BTreeMap.kit 5).run (fun _ => BTree.BTreeMap.new) 0 cs = some (st, s') ∧
      (st 0).len ≠ (st 0).abs.length) ∧
    ∃ cs : List (Kit.Cmd Nat Nat Nat (Which Nat)), (∀ cmd ∈ cs, cmd.Lawful Which.Ok) ∧
      (BTree.BTreeMap.kit 5).run (fun _ => BTree.BTreeMap.new) 0 cs = none := by
  have hl : ∀ cs : List (Kit.Cmd Nat Nat Nat (Which Nat)), (∀ cmd ∈ cs, cmd.Lawful Which.Ok) →
      ∀ cmd ∈ bprog' cs, cmd.Lawful Which.Ok :=
    fun cs => mishap_lawful (f := fun k => Which.key (compare k)) (fun n => isProbe_compare n) _ _ _
  refine ⟨?_, bprog' [.take 0 calm (.key (compare 7)), .take 0 calm (.key (compare 8))], hl _ ?_, by
    rw [← Option.isNone_iff_eq_none]; decide +kernel⟩
  · have h : (((BTree.BTreeMap.kit 5).run (fun _ => BTree.BTreeMap.new) 0 (bprog' [])).map
        (fun r => ((r.1 0).len, (r.1 0).abs.length))) = some (12, 6) := by decide +kernel
    obtain ⟨⟨st, s'⟩, e, h⟩ := Option.map_eq_some_iff.1 h
    simp only [Prod.mk.injEq] at h
    exact ⟨_, st, s', hl [] (by simp), e, by omega⟩
  · simp only [List.mem_cons, List.not_mem_nil, or_false, forall_eq_or_imp, forall_eq]
    exact ⟨isProbe_compare 7, isProbe_compare 8⟩

/-! ## `fixed::BTreeMap` -/

@[inherit_doc C58_avl_programs]
theorem C58_fixed_programs (lin : Bool) (cs : List (Kit.Cmd σ K V (K → Ordering)))
    (hc : ∀ cmd ∈ cs, cmd.Fair IsProbe) (s : σ) :
    ∃ st s', (Fixed.FMap.kit lin).run (fun _ => Fixed.FMap.new) s cs = some (st, s') ∧
      ∀ i, Fixed.Reachable lin (st i) ∧ Sorted (st i).toList ∧
        (st i).len = (st i).toList.length := by
  obtain ⟨st, s', e, h⟩ := Kit.run_good (σ := σ) (Fixed.FMap.kit_keeps (lin := lin)) cs
    (fun _ => Fixed.FMap.new) s hc (fun _ => .new)
  exact ⟨st, s', e, fun i => ⟨h i, (h i).wf.sorted, (h i).wf.len⟩⟩

/-- The program of the example is such a program; `Clone` panics in several of its calls. -/
example : (∀ cmd ∈ uprog (fun k => (compare k)), cmd.Fair IsProbe) ∧
    ((Fixed.FMap.kit true).run (fun _ => Fixed.FMap.new) 0 (uprog (fun k => compare k))).map (fun r =>
      (List.range 4).map (fun i => (r.1 i).toList.map (·.1))) =
    some [[0, 1, 2, 4, 5, 7, 8, 9, 11, 12, 15, 18, 19, 21, 22, 25, 26, 28, 29, 100], [],
      [1, 2, 4, 5, 7, 8, 9, 11, 12, 14, 15, 18, 19, 21, 22, 25, 26, 28, 29],
      [0, 1, 2, 4, 5, 7, 8, 9, 11, 12, 15, 18, 19, 21, 22, 25, 26, 28, 29, 100]] :=
  ⟨uprog_fair (fun n => isProbe_compare n), by decide +kernel⟩

@[inherit_doc C58_avl]
theorem C58_fixed {lin : Bool} {m : Fixed.FMap K V} (hm : Fixed.Reachable lin m) (c : Cl σ K V)
    (s : σ) :
    (∀ k v, ∃ q s', m.insertC lin c k v s = some (q, s') ∧ match q with
      | .unwound m' => m' = m ∧ Bad c
      | .done (m', o) => Fixed.Reachable lin m' ∧
          o = (Spec.find (compare k) m.toList).map (·.2) ∧ m'.toList = Spec.insert k v m.toList) ∧
    (∀ p g, IsProbe p → ∃ q s', m.getMutC lin c p g s = some (q, s') ∧ match q with
      | .unwound m' => m' = m ∧ Bad c
      | .done (m', b) => Fixed.Reachable lin m' ∧ b = (Spec.find p m.toList).isSome ∧
          m'.toList = m.toList.map (fun e => if p e.1 = .eq then (e.1, g e.2) else e)) ∧
    ∀ es, ∃ q s', (Fixed.FMap.kit lin).extend c m es s = some (q, s') ∧ match q with
      | .unwound m' => Fixed.Reachable lin m' ∧ Bad c ∧
          ∃ l1 e l2, es = l1 ++ e :: l2 ∧ m'.toList = Spec.insertAll m.toList l1
      | .done m' => Fixed.Reachable lin m' ∧ m'.toList = Spec.insertAll m.toList es := by
  have hw := hm.wf
  refine ⟨fun k v => ?_, fun p g hp => ?_, fun es => ?_⟩
  · obtain ⟨m2, e2, -, h2⟩ := Fixed.FMap.insert_spec (lin := lin) hw k v
    obtain ⟨q, s', e, hq⟩ := Fixed.FMap.insertC_spec m c k v s e2
    refine ⟨q, s', e, ?_⟩
    rcases q with m' | ⟨m', o⟩
    · exact hq
    · cases hq
      exact ⟨hm.insert e2, rfl, h2⟩
  · obtain ⟨m2, e2, -, h2, -⟩ := Fixed.FMap.getMut_spec (lin := lin) hw hp g
    obtain ⟨q, s', e, hq⟩ := Fixed.FMap.getMutC_spec m c p g s e2
    refine ⟨q, s', e, ?_⟩
    rcases q with m' | ⟨m', o⟩
    · exact hq
    · cases hq
      exact ⟨hm.getMut hp e2, rfl, h2⟩
  · obtain ⟨q, s', e, hq⟩ := Kit.extend_prefix (k := Fixed.FMap.kit lin) (α := id)
      (plain := Fixed.FMap.extend lin) (Good := Fixed.Reachable lin) (c := c)
      (fun m => rfl) (fun a b m s hm => by
        obtain ⟨m2, e2, -, h2⟩ := Fixed.FMap.insert_spec (lin := lin) hm.wf a b
        obtain ⟨q, s', e, hq⟩ := Fixed.FMap.insertC_spec m c a b s e2
        refine ⟨q, s', e, ?_⟩
        rcases q with m' | ⟨m', o⟩
        · exact hq
        · cases hq
          exact ⟨hm.insert e2, fun es => by simp only [Fixed.FMap.extend, id, e2]⟩) es m s hm
    refine ⟨q, s', e, ?_⟩
    rcases q with m' | m'
    · obtain ⟨⟨l1, x, l2, rfl, h⟩, hb⟩ := hq
      obtain ⟨m2, e2, -, h2⟩ := Fixed.FMap.extend_spec (lin := lin) hw l1
      simp only [id] at h
      rw [h] at e2; cases e2
      exact ⟨hm.extend h, hb, l1, x, l2, rfl, h2⟩
    · obtain ⟨m2, e2, -, h2⟩ := Fixed.FMap.extend_spec (lin := lin) hw es
      simp only [id] at hq
      rw [hq] at e2; cases e2
      exact ⟨hm.extend hq, h2⟩

/-- An insertion that meets the node of `Clone`'s displeasure and one that does not; an `extend`
interrupted at its second entry. -/
example : Fixed.Reachable true (uf true (uents 20)) ∧
    ((uf true (uents 20)).insertC true (fussy 4) 3 0 0).map (fun r =>
      how (fun m => (m.toList.map (·.1), m.len)) (fun r => (r.1.toList.map (·.1), r.1.len)) r.1) =
      some (false, [0, 1, 2, 4, 5, 7, 8, 9, 11, 12, 14, 15, 18, 19, 21, 22, 25, 26, 28, 29], 20) ∧
    ((uf true (uents 20)).insertC true (fussy 28) 3 0 0).map (fun r =>
      how (fun m => (m.toList.map (·.1), m.len)) (fun r => (r.1.toList.map (·.1), r.1.len)) r.1) =
      some (true, [0, 1, 2, 3, 4, 5, 7, 8, 9, 11, 12, 14, 15, 18, 19, 21, 22, 25, 26, 28, 29], 21) ∧
    ((Fixed.FMap.kit true).extend tired (uf true (uents 20)) [(3, 0), (30, 0), (27, 0)] 6).map
      (fun r => how (fun m => (m.toList.map (·.1), m.len)) (fun m => (m.toList.map (·.1), m.len)) r.1) =
      some (false, [0, 1, 2, 3, 4, 5, 7, 8, 9, 11, 12, 14, 15, 18, 19, 21, 22, 25, 26, 28, 29], 21) :=
  ⟨uf_reach _ _, by decide +kernel⟩

/-- C59, what is left of it.  Whatever `Clone` does, a removal does exactly what it should, or
leaves some of the entries, perhaps in another order, and `len` as it was. -/
theorem C59_fixed_partial {lin : Bool} {m : Fixed.FMap K V} (hm : Fixed.Reachable lin m)
    (c : Cl σ K V) {p : K → Ordering} (hp : IsProbe p) (s : σ) :
    ∃ q s', m.takeC lin c p s = some (q, s') ∧ match q with
      | .unwound m' => m'.toList.Subperm m.toList ∧ m'.len = m.len ∧ Bad c
      | .done (m', o) => Fixed.Reachable lin m' ∧
          o.map (·.2) = (Spec.find p m.toList).map (·.2) ∧
          m'.toList = Spec.erase p m.toList := by
  obtain ⟨x, hx, hr⟩ := Fixed.FMap.take_reach hm hp
  obtain ⟨q, s', e, hq⟩ := Fixed.FMap.takeC_spec hm.wf.inv c p hx s
  refine ⟨q, s', e, ?_⟩
  rcases q with m' | ⟨m', o⟩
  · exact hq
  · cases hq
    refine ⟨hr, ?_⟩
    obtain ⟨m2, e2, -, h2⟩ := Fixed.FMap.remove_spec (lin := lin) hm.wf hp
    have h3 : m.remove lin p = some (m', o.map (·.2)) := by
      obtain ⟨root, len⟩ := m
      cases root with
      | none => cases hx; rfl
      | some n =>
        simp only [Fixed.FMap.take] at hx
        simp only [Fixed.FMap.remove, hx]
        rfl
    have := h3.symm.trans e2
    simp only [Option.some.injEq, Prod.mk.injEq] at this
    exact ⟨this.2, by rw [← this.1] at h2; exact h2⟩

/-- The removal of 11 when the clone of 0 panics: half of the entries are gone, and `len` is still
12. -/
example : Fixed.Reachable true (uf true (keyed (List.range 12))) ∧
    ((uf true (keyed (List.range 12))).takeC true (fussy 0) (compare 11) 0).map (fun r =>
      how (fun m => (m.toList.map (·.1), m.len)) (fun r => (r.1.toList.map (·.1), r.1.len)) r.1) =
      some (false, [0, 1, 2, 3, 4, 5], 12) :=
  ⟨uf_reach _ _, by decide +kernel⟩

/-- C59 is false for `fixed::BTreeMap`.  A removal interrupted by a panic of `Clone` can leave a
map whose `len` is not the number of its entries, whose entries are out of order, and on which a
later mutable lookup panics, although every comparison is lawful. -/
theorem C59_fixed_false : (∃ (cs : List (Kit.Cmd Nat Nat Nat (Nat → Ordering)))
      (st : Kit.Maps (Fixed.FMap Nat Nat)) (s' : Nat), (∀ cmd ∈ cs, cmd.Lawful IsProbe) ∧
      (Fixed.FMap.kit true).run (fun _ => Fixed.FMap.new) 0 cs = some (st, s') ∧
      (st 0).len ≠ (st 0).toList.length ∧ ¬ Sorted (st 0).toList) ∧
    ∃ cs : List (Kit.Cmd Nat Nat Nat (Nat → Ordering)), (∀ cmd ∈ cs, cmd.Lawful IsProbe) ∧
      (Fixed.FMap.kit true).run (fun _ => Fixed.FMap.new) 0 cs = none := by
  refine ⟨⟨hole, holed.1, holed.2, hole_lawful, holed_eq, ?_⟩,
    fprog' [.getMut 0 calm (compare 7) id],
    mishap_lawful (f := fun k => compare k) (fun n => isProbe_compare n) _ _ _ ?_, by
    rw [← Option.isNone_iff_eq_none]; decide +kernel⟩
  · have h : ((Fixed.FMap.kit true).run (fun _ => Fixed.FMap.new) 0 hole).map
        (fun r => ((r.1 0).len, (r.1 0).toList.length,
          ((r.1 0).toList.map (·.1))[5]?, ((r.1 0).toList.map (·.1))[11]?)) =
        some (86, 79, some 140, some 130) := by decide +kernel
    rw [holed_eq, Option.map_some, Option.some.injEq] at h
    simp only [Prod.mk.injEq] at h
    obtain ⟨h1, h2, h3, h4⟩ := h
    refine ⟨by omega, fun hs => ?_⟩
    simp only [List.getElem?_map, Option.map_eq_some_iff] at h3 h4
    obtain ⟨x, hx, hx'⟩ := h3
    obtain ⟨y, hy, hy'⟩ := h4
    have := List.pairwise_iff_getElem.1 hs 5 11 (List.getElem?_eq_some_iff.1 hx).1
      (List.getElem?_eq_some_iff.1 hy).1 (by omega)
    rw [(List.getElem?_eq_some_iff.1 hx).2, (List.getElem?_eq_some_iff.1 hy).2, hx', hy'] at this
    exact absurd this (by decide)
  · simp only [List.mem_singleton, forall_eq]
    exact isProbe_compare 7

/-- C59 is false for `fixed::BTreeMap`, and memory safety with it.  After a removal interrupted by a
panic of `Clone`, every assertion on the way of an insertion holds, and `ins_split` makes a node
that counts among its children a slot that holds none. -/
theorem C59_fixed_unsafe : ∃ (cs : List (Kit.Cmd Nat Nat Nat (Nat → Ordering)))
      (st : Kit.Maps (Fixed.FMap Nat Nat)) (s' k i : Nat) (es : List (Nat × Nat))
      (ks : List (BTree.Node Nat Nat)) (lhs : BTree.Node Nat Nat) (kv : Nat × Nat)
      (kid : BTree.Node Nat Nat),
    (∀ cmd ∈ cs, cmd.Lawful IsProbe) ∧
    (Fixed.FMap.kit true).run (fun _ => Fixed.FMap.new) 0 cs = some (st, s') ∧
    (st 0).root = some (.mk es ks) ∧ Fixed.searchKeys true (compare k) es = some (i, false) ∧
    Fixed.insAt true k 0 i ks = some (some (.split lhs kv kid)) ∧
    es.length = 11 ∧
    ∃ x div len s les res, Fixed.IVec.load 11 es = some x ∧
      Fixed.splitLoop i (some lhs) kv
        (Fixed.Splitter.new x (Fixed.fill 12 (ks.set i kid)) true) = some (div, len, s) ∧
      Fixed.IVec.unload ⟨s.dstK, s.dstV, len⟩ = some les ∧
      Fixed.IVec.unload ⟨s.srcK, s.srcV, 11 - len⟩ = some res ∧
      (none ∈ s.dstN.take (len + 1) ∨ none ∈ s.srcN.take (11 - len + 1)) := by
  have h : (((Fixed.FMap.kit true).run (fun _ => Fixed.FMap.new) 0 hole).bind
      (fun r => (r.1 0).root)).map (fun n => (n.elems.length, n.kids.length,
        Fixed.searchKeys true (compare 146) n.elems,
        match Fixed.insAt true 146 0 2 n.kids with
        | some (some (.split ..)) => true
        | _ => false)) = some (11, 11, some (2, false), true) := by decide +kernel
  rw [holed_eq, Option.bind_some] at h
  obtain ⟨⟨es, ks⟩, hr, h⟩ := Option.map_eq_some_iff.1 h
  simp only [BTree.Node.elems, BTree.Node.kids, Prod.mk.injEq] at h
  obtain ⟨h1, h2, h3, h4⟩ := h
  cases hi : Fixed.insAt true 146 0 2 ks with
  | none => rw [hi] at h4; cases h4
  | some o =>
    cases o with
    | none => rw [hi] at h4; cases h4
    | some r =>
      cases r with
      | replaced => rw [hi] at h4; cases h4
      | absorbed => rw [hi] at h4; cases h4
      | split lhs kv kid =>
        exact ⟨hole, holed.1, holed.2, 146, 2, es, ks, lhs, kv, kid, hole_lawful, holed_eq, hr, h3, hi,
          h1, Fixed.split_hole kv lhs h1 (by rw [List.length_set]; exact h2) (by decide)⟩

end Verif.Props
