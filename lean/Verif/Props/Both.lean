import Verif.Props.AvlMap
import Verif.Props.BTreeMap
import Verif.Lib.Api
/-!
# C29: `AvlMap` and `BTreeMap` are interchangeable

The claim as it stands is false: `range` on bounds out of order panics for BTreeMap and not for
AvlMap, and `retain` calls its closure in different orders.  On everything else the two maps
agree, for every program over any number of maps and clones.
-/
namespace Verif.Props
open Std Verif.Lib.Api Verif.BTree Verif.Avl
variable {K V Q : Type} [Ord K] [TransOrd K] [Ord Q] [TransOrd Q]

/-- Both maps are reachable and hold the same entries. -/
def Same (N : Nat) (a : AvlMap K V) (m : BTreeMap K V) : Prop :=
  Avl.Reachable a ∧ BTree.Reachable N m ∧ a.abs = m.abs

theorem range_isSome {N : Nat} (hN : 1 ≤ N) {m : BTreeMap K V} (h : BTree.Reachable N m) {b : K → Q}
    (hb : ∀ x y, compare (b x) (b y) = compare x y) {lo hi : QBnd Q} (hr : RangeOk lo hi) :
    ∃ it, m.range b lo hi = some it := by
  rw [← Option.isSome_iff_exists, Option.isSome_iff_ne_none, ne_eq, (C23_btree_range hN h hb lo hi).1]
  have sw : ∀ x y : Q, compare y x = .lt → compare x y = .gt := fun x y hxy => by
    rw [OrientedCmp.eq_swap (cmp := compare), hxy]; rfl
  rintro (⟨x, y, h1, h2, h3⟩ | ⟨x, y, rfl, rfl, h3, -⟩)
  · have h3 := sw _ _ h3
    rcases h1 with rfl | rfl <;> rcases h2 with rfl | rfl <;> simp [RangeOk, h3] at hr
  · simp [RangeOk, h3] at hr

theorem spec_calls_pure (f : K → V → V × Bool) (l : List (K × V)) :
    (Spec.calls (σ := Unit) (fun _ k v => ((), f k v)) () l).2 =
      (l.filter (fun e => (f e.1 e.2).2)).map (fun e => (e.1, (f e.1 e.2).1)) := by
  induction l with
  | nil => rfl
  | cons e es ih =>
    simp only [Spec.calls, List.filter_cons, ih]
    split <;> simp_all

/-- One operation on one map. -/
theorem same_one {N : Nat} (hN : 1 ≤ N) {b : K → Q} (hb : ∀ x y, compare (b x) (b y) = compare x y)
    (o : Sharing K V) {a : AvlMap K V} {m : BTreeMap K V} (h : Same N a m) (i : Nat) (op : Op1 K V Q)
    (hop : Op.Ok (.one i op)) :
    ∃ a' m' r, avl1 b a op = some (a', r) ∧ btree1 N b o m op = some (m', r) ∧ Same N a' m' := by
  obtain ⟨ha, hm, e⟩ := h
  have wa := ha.wf
  have wm := hm.wf hN
  have hp := isProbe_borrow b hb
  have hgk : ∀ q, a.getKeyValue (fun k => compare q (b k)) =
      m.getKeyValue (fun k => compare q (b k)) := fun q => by
    rw [AvlMap.getKeyValue_spec wa (hp q), BTreeMap.getKeyValue_spec wm (hp q), e]
  have hgk' : ∀ k : K, a.getKeyValue (compare k) = m.getKeyValue (compare k) := fun k => by
    rw [AvlMap.getKeyValue_spec wa (isProbe_compare k),
      BTreeMap.getKeyValue_spec wm (isProbe_compare k), e]
  have hck : ∀ p, IsProbe p → a.containsKey p = m.containsKey p := fun p hp => by
    rw [BTreeMap.containsKey_spec wm hp, AvlMap.containsKey, AvlMap.get,
      AvlMap.getKeyValue_spec wa hp, e, Option.isSome_map]
  have hget : ∀ p, IsProbe p → a.get p = m.get p := fun p hp => by
    rw [AvlMap.get, BTreeMap.get, AvlMap.getKeyValue_spec wa hp, BTreeMap.getKeyValue_spec wm hp, e]
  cases op with
  | clear => exact ⟨_, _, _, rfl, rfl, ha.clear, hm.clear, rfl⟩
  | insert k v =>
    obtain ⟨a', ea, ra, -, -, ca, -⟩ := C01_avl_insert ha k v
    obtain ⟨m', em, rm, -, -, cm, -⟩ := C17_btree_insert hN hm k v
    exact ⟨a', m', _, by rw [avl1, ea]; rfl,
      by rw [btree1, em, hget _ (isProbe_compare k)]; rfl, ra, rm, by rw [ca, cm, e]⟩
  | remove q =>
    obtain ⟨a', -, ea, ra, ca, -⟩ := C02_avl_remove ha (hp q)
    obtain ⟨m', em, rm, cm, -⟩ := C18_btree_remove hN hm (hp q)
    exact ⟨a', m', _, by rw [avl1, ea]; rfl, by rw [btree1, em, hget _ (hp q)]; rfl, ra, rm,
      by rw [ca, cm, e]⟩
  | popFirst =>
    obtain ⟨a', ea, ra, ca, -⟩ := (C02_avl_pop ha).1
    obtain ⟨m', em, rm, cm, -⟩ := (C18_btree_pop hN hm).1
    exact ⟨a', m', _, by rw [avl1, ea]; rfl, by rw [btree1, em, e]; rfl, ra, rm, by rw [ca, cm, e]⟩
  | popLast =>
    obtain ⟨a', ea, ra, ca, -⟩ := (C02_avl_pop ha).2
    obtain ⟨m', em, rm, cm, -⟩ := (C18_btree_pop hN hm).2
    exact ⟨a', m', _, by rw [avl1, ea]; rfl, by rw [btree1, em, e]; rfl, ra, rm, by rw [ca, cm, e]⟩
  | getKeyValue q => exact ⟨_, _, _, rfl, by rw [btree1, hgk], ha, hm, e⟩
  | get q => exact ⟨_, _, _, rfl, by rw [btree1, hget _ (hp q)], ha, hm, e⟩
  | containsKey q => exact ⟨_, _, _, rfl, by rw [btree1, hck _ (hp q)], ha, hm, e⟩
  | getMut q g =>
    obtain ⟨x1, x2, -, -, x5⟩ := C13_avl_getMut ha (hp q) g
    obtain ⟨y1, y2, -, y5⟩ := C13_btree_getMut hN hm (hp q) g
    exact ⟨_, _, _, rfl, by rw [btree1, y1, x1, hck _ (hp q)], x2, y2,
      by rw [x5, y5, e]⟩
  | first =>
    refine ⟨a, m, .entry m.abs.head?, ?_, ?_, ha, hm, e⟩
    · rw [avl1, AvlMap.firstKeyValue, Tree.first_toList]; exact congrArg (fun l => some (a, Res.entry (List.head? l))) e
    · rw [btree1, BTreeMap.firstKeyValue_spec hN wm]; rfl
  | last =>
    refine ⟨a, m, .entry m.abs.getLast?, ?_, ?_, ha, hm, e⟩
    · rw [avl1, AvlMap.lastKeyValue, Tree.last_toList]; exact congrArg (fun l => some (a, Res.entry (List.getLast? l))) e
    · rw [btree1, BTreeMap.lastKeyValue_spec hN wm]
  | len =>
    exact ⟨a, m, _, rfl, by rw [btree1, wm.len_eq, wa.len_eq, e], ha, hm, e⟩
  | isEmpty =>
    exact ⟨a, m, _, rfl, by rw [btree1, BTreeMap.isEmpty, AvlMap.isEmpty, wm.len_eq, wa.len_eq, e],
      ha, hm, e⟩
  | iter ds =>
    exact ⟨a, m, _, by rw [avl1, (C11_avl_iter ha ds).1]; rfl,
      by rw [btree1, (C22_btree_iter hN hm o ds).1, e]; rfl, ha, hm, e⟩
  | intoIter ds =>
    exact ⟨_, _, _, by rw [avl1, (C11_avl_iter ha ds).1]; rfl,
      by rw [btree1, (C22_btree_iter hN hm o ds).2.1, e]; rfl, .new, .new, rfl⟩
  | iterMut ds w =>
    obtain ⟨sa, a', ea, ra, xa, -, -, -, ca⟩ := C13_avl_iterMut ha ds w
    obtain ⟨sm, m', em, rm, xm, -, -, cm⟩ := C13_btree_iterMut hN hm ds w
    refine ⟨a', m', _, by rw [avl1, ea]; rfl, by rw [btree1, em, e]; rfl, ra, rm, ?_⟩
    rw [ca, cm, xa, xm, e]
  | range lo hi ds =>
    obtain ⟨sl, ea, -⟩ := C12_avl_range ha (lo.lawful hb) (hi.lawful hb) ds
    obtain ⟨it, hit⟩ := range_isSome hN hm hb (show RangeOk lo hi from hop)
    obtain ⟨sl', it', em, -⟩ := (C23_btree_range hN hm hb lo hi).2 it hit ds
    refine ⟨a, m, _, by rw [avl1, ea]; rfl, ?_, ha, hm, e⟩
    rw [btree1, hit]
    dsimp only
    rw [em, e]
    simp [Function.comp_def]
  | rangeMut lo hi ds w =>
    obtain ⟨na, sa, a', ea, ra, ya, xa, -, -, -, ca⟩ :=
      C13_avl_rangeMut ha (lo.lawful hb) (hi.lawful hb) ds w
    obtain ⟨it, hit⟩ := range_isSome hN hm hb (show RangeOk lo hi from hop)
    obtain ⟨h1, h2⟩ := C13_btree_rangeMut hN hm hb lo hi ds w
    obtain ⟨r, hr⟩ := Option.ne_none_iff_exists'.1 (mt h1.1 (by rw [hit]; simp))
    obtain ⟨nm, sm, m', rfl, rm, ym, xm, -, -, cm⟩ := h2 r hr
    refine ⟨a', m', _, by rw [avl1, ea]; rfl, ?_, ra, rm, ?_⟩
    · rw [btree1, hr, Option.map_some, ya, ym, e]
    · rw [ca, cm, xa, xm, e]
  | retain f =>
    obtain ⟨s1, a', ea, ca⟩ := C09_avl_retain_pure ha f
    obtain ⟨s2, m', em, rm, cm, -⟩ := C25_btree_retain (σ := Unit) hN hm o (fun _ k v => ((), f k v)) ()
    refine ⟨a', m', .unit, ?_, ?_, ha.retain (f := fun _ k v => ((), f k v)) ea, rm, ?_⟩
    · rw [avl1, ea]
    · rw [btree1, em]
    · have := congrArg Prod.snd cm
      rw [spec_calls_pure] at this
      rw [ca, e]; exact this.symm
  | extend es =>
    obtain ⟨a', ea, ra, -, ca, -⟩ := C26_avl_bulk ha es
    obtain ⟨m', em, rm, -, cm, -⟩ := C26_btree_bulk hN hm es
    exact ⟨a', m', _, by rw [avl1, ea]; rfl, by rw [btree1, em]; rfl, ra, rm, by rw [ca, cm, e]⟩
  | entryOrInsert k d g =>
    obtain ⟨s1, a', ea, ra, ca⟩ := C27_avl_entry (σ := List K) ha k (fun s k => (s ++ [k], d k)) [] g
    obtain ⟨s2, m', em, rm, cm⟩ :=
      C27_btree_entry (σ := List K) hN hm k (fun s k => (s ++ [k], d k)) [] g
    rw [← hck _ (isProbe_compare k)] at cm
    have hs : s1 = s2 ∧ a'.abs = m'.abs := by
      split at ca
      · rename_i hc
        rw [if_pos hc] at cm
        exact ⟨ca.1.trans cm.1.symm, by rw [ca.2, cm.2, e]⟩
      · rename_i hc
        rw [if_neg hc] at cm
        exact ⟨ca.1.trans cm.1.symm, by rw [ca.2, cm.2, e]⟩
    obtain ⟨rfl, he⟩ := hs
    exact ⟨a', m', _, by rw [avl1, ea]; rfl, by rw [btree1, em]; rfl, ra, rm, he⟩
  | entryAndModify k g =>
    obtain ⟨ra, ca, -⟩ := C27_avl_and_modify ha k g
    obtain ⟨rm, cm, -⟩ := C27_btree_and_modify hN hm k g
    exact ⟨_, _, _, rfl, rfl, ra, rm, by rw [ca, cm, e]⟩
  | serialize =>
    obtain ⟨ea, -⟩ := C33_avl_round_trip true (usizeMax := 1) ha none (by simp)
    obtain ⟨em, -⟩ := C33_btree_round_trip hN true (usizeMax := 1) hm none (by simp)
    exact ⟨a, m, _, by rw [avl1, ea]; rfl, by rw [btree1, em, e]; rfl, ha, hm, e⟩
  | deserialize debug u hint es err =>
    have hh : ∀ n, hint = some n → n < u := hop
    obtain ⟨x1, a', x2, ra, ca⟩ := C30_avl_deserialize (K := K) (V := V) debug hint hh es
    obtain ⟨y1, m', y2, rm, cm⟩ := C31_btree_deserialize (K := K) (V := V) hN debug hint hh es
    cases err with
    | true => exact ⟨a, m, _, by rw [avl1, x1]; rfl, by rw [btree1, y1]; rfl, ha, hm, e⟩
    | false =>
      exact ⟨a', m', _, by rw [avl1, x2]; rfl, by rw [btree1, y2]; rfl, ra, rm, by rw [ca, cm]⟩

/-- One operation on two maps. -/
theorem same_two {N : Nat} (hN : 1 ≤ N) {b : K → Q} (hb : ∀ x y, compare (b x) (b y) = compare x y)
    (o : Sharing K V) {a a2 : AvlMap K V} {m m2 : BTreeMap K V} (h : Same N a m) (h2 : Same N a2 m2)
    (op : Op2 K V Q) :
    ∃ a' a2' m' m2' r, avl2 b a a2 op = some (a', a2', r) ∧ btree2 N b o m m2 op = some (m', m2', r) ∧
      Same N a' m' ∧ Same N a2' m2' := by
  obtain ⟨ha, hm, e⟩ := h
  obtain ⟨ha2, hm2, e2⟩ := h2
  have hp := isProbe_borrow b hb
  cases op with
  | clone => exact ⟨_, _, _, _, _, rfl, rfl, ⟨ha, hm, e⟩, ha, hm, e⟩
  | append =>
    obtain ⟨a', ea, -, ra, -, ca, -⟩ := C06_avl_append ha ha2
    obtain ⟨m', em, rm, -, cm, -⟩ := C25_btree_append hN hm hm2 o
    exact ⟨a', _, m', _, _, by rw [avl2, ea]; rfl, by rw [btree2, em]; rfl,
      ⟨ra, rm, by rw [ca, cm, e, e2]⟩, .new, .new, rfl⟩
  | splitOff q =>
    obtain ⟨a1, a3, ea, ra, ra', ca, ca', -⟩ := C05_avl_splitOff ha (hp q)
    obtain ⟨m1, m3, em, rm, rm', cm, cm', -⟩ := C25_btree_splitOff hN hm o (hp q)
    exact ⟨_, _, _, _, _, by rw [avl2, ea]; rfl, by rw [btree2, em]; rfl,
      ⟨ra, rm, by rw [ca, cm, e]⟩, ra', rm', by rw [ca', cm', e]⟩
  | eq eqE =>
    refine ⟨a, a2, m, m2, .bool (decide (a.abs.length = a2.abs.length) &&
      (a.abs.zip a2.abs).all (fun z => eqE z.1 z.2)), ?_, ?_, ⟨ha, hm, e⟩, ha2, hm2, e2⟩
    · rw [avl2, AvlMap.eqMap, AvlMap.iterList_spec ha.wf, AvlMap.iterList_spec ha2.wf,
        ha.wf.len_eq, ha2.wf.len_eq]
      by_cases h : a.abs.length = a2.abs.length <;> simp [h]
    · rw [btree2, BTreeMap.eqMap, BTreeMap.iterList_spec hN (hm.wf hN),
        BTreeMap.iterList_spec hN (hm2.wf hN), (hm.wf hN).len_eq, (hm2.wf hN).len_eq, ← e, ← e2]
      by_cases h : a.abs.length = a2.abs.length <;> simp [h]
  | cmp cmpE =>
    refine ⟨a, a2, m, m2, .ord (Spec.lexCmp cmpE a.abs a2.abs), ?_, ?_, ⟨ha, hm, e⟩, ha2, hm2, e2⟩
    · rw [avl2, AvlMap.cmpMap, AvlMap.iterList_spec ha.wf, AvlMap.iterList_spec ha2.wf]; rfl
    · rw [btree2, BTreeMap.cmpMap, BTreeMap.iterList_spec hN (hm.wf hN),
        BTreeMap.iterList_spec hN (hm2.wf hN), ← e, ← e2]; rfl

theorem same_run {N : Nat} (hN : 1 ≤ N) {b : K → Q} (hb : ∀ x y, compare (b x) (b y) = compare x y)
    (o : Nat → Sharing K V) : ∀ (ops : List (Op K V Q)) (n : Nat) {sa : Nat → AvlMap K V}
    {sm : Nat → BTreeMap K V}, (∀ i, Same N (sa i) (sm i)) → (∀ op ∈ ops, op.Ok) →
    ∃ ta tm, run (avl b) n sa ops = some ta ∧ run (btree N b o) n sm ops = some tm ∧
      ta.length = ops.length ∧ ta.map (·.1) = tm.map (·.1) ∧
      ta.map (fun x i => (x.2 i).abs) = tm.map (fun x i => (x.2 i).abs)
  | [], _, _, _, _, _ => ⟨[], [], rfl, rfl, rfl, rfl, rfl⟩
  | op :: ops, n, sa, sm, hs, hok => by
    have hst : ∃ sa' sm' r, step (avl b) n sa op = some (sa', r) ∧
        step (btree N b o) n sm op = some (sm', r) ∧ ∀ i, Same N (sa' i) (sm' i) := by
      have h0 := hok op (List.mem_cons_self ..)
      cases op with
      | one i op =>
        obtain ⟨a', m', r, e1, e2, hsame⟩ := same_one hN hb (o n) (hs i) i op h0
        refine ⟨_, _, r, by simp only [step, avl, e1]; rfl, by simp only [step, btree, e2]; rfl, ?_⟩
        intro x
        simp only [put]
        split
        · exact hsame
        · exact hs x
      | two i j op =>
        obtain ⟨a', a2', m', m2', r, e1, e2, h1, h2⟩ := same_two hN hb (o n) (hs i) (hs j) op
        refine ⟨_, _, r, by simp only [step, avl, e1]; rfl, by simp only [step, btree, e2]; rfl, ?_⟩
        intro x
        simp only [put]
        split
        · exact h2
        · split
          · exact h1
          · exact hs x
    obtain ⟨sa', sm', r, e1, e2, hs'⟩ := hst
    obtain ⟨ta, tm, f1, f2, fl, f3, f4⟩ := same_run hN hb o ops (n + 1) hs'
      (fun op h => hok op (List.mem_cons_of_mem _ h))
    refine ⟨(r, sa') :: ta, (r, sm') :: tm, by simp [run, e1, f1], by simp [run, e2, f2], ?_, ?_, ?_⟩
    · simp [fl]
    · simp only [List.map_cons, f3]
    · simp only [List.map_cons, f4]
      congr 1
      exact funext fun i => (hs' i).2.2

/-- C29, the part that holds.  Run any program (a list of operations on any number of maps, all
starting empty) on AvlMaps and on BTreeMaps, for any `N ≥ 1` and whatever nodes happen to be
shared.  Neither panics, both report the same results at every step, and after every step each
map holds the same entries in both.

Excluded by `Op.Ok`: range bounds that are out of order or both excluded and equal (there the two
differ, `C29_range_fails`), and a deserializer hint of `usize::MAX`.  `retain` takes closures
without state (with state they differ, `C29_retain_order_fails`), and the `len` of range
iterators is not compared. -/
theorem C29_map_interchangeable_partial {N : Nat} (hN : 1 ≤ N) {b : K → Q}
    (hb : ∀ x y, compare (b x) (b y) = compare x y) (o : Nat → Sharing K V) (ops : List (Op K V Q))
    (hok : ∀ op ∈ ops, op.Ok) :
    ∃ ta tm, run (avl b) 0 (fun _ => AvlMap.new) ops = some ta ∧
      run (btree N b o) 0 (fun _ => BTreeMap.new) ops = some tm ∧ ta.length = ops.length ∧
      ta.map (·.1) = tm.map (·.1) ∧
      ta.map (fun x i => (x.2 i).abs) = tm.map (fun x i => (x.2 i).abs) :=
  same_run hN hb o ops 0 (fun _ => ⟨.new, .new, rfl⟩) hok

/-- A program with clones, bulk operations and ranges. -/
def prog29 : List (Op Demo.CKey Nat Nat) :=
  [.one 0 (.extend Demo.bents), .two 0 1 .clone, .one 0 (.remove 3), .one 1 (.insert ⟨3, 9⟩ 33),
   .one 0 (.range (.excluded 2) (.included 8) [true, false, false, true]),
   .two 1 2 (.splitOff 6), .two 0 2 .append, .one 0 (.retain (fun k v => (v + 1, k.id % 2 == 0))),
   .one 0 (.entryOrInsert ⟨4, 5⟩ (fun _ => 0) (· + 7)), .one 0 .serialize,
   .two 0 1 (.cmp (fun x y => compare x.2 y.2)), .one 0 .popLast]

theorem prog29_ok : ∀ op ∈ prog29, op.Ok := by
  intro op h
  simp only [prog29, List.mem_cons, List.not_mem_nil, or_false] at h
  rcases h with rfl | rfl | rfl | rfl | rfl | rfl | rfl | rfl | rfl | rfl | rfl | rfl <;>
    simp [Op.Ok, RangeOk] <;> decide

example := C29_map_interchangeable_partial (Nat.le_refl 1) (b := Demo.CKey.id) (fun _ _ => rfl)
  (fun n => if n % 2 = 0 then Sharing.unique else Sharing.shared) prog29 prog29_ok
-- what both report
example : (run (avl Demo.CKey.id) 0 (fun _ => AvlMap.new) prog29).map (·.map (·.1)) =
    some [.unit, .unit, .val (some 30), .val (some 30),
      .seen [some (⟨4, 0⟩, 40), some (⟨8, 0⟩, 80), some (⟨7, 0⟩, 70), some (⟨5, 0⟩, 50)],
      .unit, .unit, .unit, .called [],
      .written (5, [(⟨2, 1⟩, 22), (⟨4, 0⟩, 48), (⟨6, 0⟩, 61), (⟨8, 0⟩, 81), (⟨10, 0⟩, 101)]),
      .ord .gt, .entry (some (⟨10, 0⟩, 101))] := by decide +kernel

/-- C29 is **false** as stated: asked for a range with bounds out of order, AvlMap yields nothing
and BTreeMap panics; both hold the same entry. -/
theorem C29_range_fails : ∃ (ops : List (Op Nat Nat Nat)),
    (run (avl id) 0 (fun _ => AvlMap.new) ops).map (·.map (·.1)) =
      some [.val none, .seen [none]] ∧
    (run (btree 1 id (fun _ => Sharing.unique)) 0 (fun _ => BTreeMap.new) ops).isNone :=
  ⟨[.one 0 (.insert 1 1), .one 0 (.range (.included 2) (.included 1) [true])],
    by decide +kernel, by decide +kernel⟩

/-- C29 is **false** as stated for a second reason: on maps with the same entries, `retain` calls
its closure in different orders, so a closure that keeps the first two entries it is shown
leaves different maps. -/
theorem C29_retain_order_fails : ∃ (a : AvlMap Nat Nat) (m : BTreeMap Nat Nat) (s t : Nat)
    (a' : AvlMap Nat Nat) (m' : BTreeMap Nat Nat), Avl.Reachable a ∧ BTree.Reachable 1 m ∧
    a.abs = m.abs ∧
    a.retain (fun n _ v => some (n + 1, v, decide (n < 2))) 0 = .done s a' ∧
    m.retain 1 Sharing.unique (fun n _ v => some (n + 1, v, decide (n < 2))) 0 = .done t m' ∧
    a'.abs = [(1, 1), (3, 3)] ∧ m'.abs = [(1, 1), (2, 2)] := by
  have ea : AvlMap.new.extend [(1, 1), (2, 2), (3, 3)] =
      some ((AvlMap.fromIter [(1, 1), (2, 2), (3, 3)]).getD (.new : AvlMap Nat Nat)) := by decide
  have em : BTreeMap.new.extend 1 [(1, 1), (2, 2), (3, 3)] = some
      ((BTreeMap.fromIter 1 [(1, 1), (2, 2), (3, 3)]).getD (.new : BTreeMap Nat Nat)) :=
    Demo.getD_of_isSome _ (by decide +kernel)
  have rm := BTree.Reachable.extend (N := 1) .new em
  have hm : ((BTreeMap.fromIter 1 [(1, 1), (2, 2), (3, 3)]).getD (.new : BTreeMap Nat Nat)).abs =
      [(1, 1), (2, 2), (3, 3)] := by decide +kernel
  obtain ⟨t, m', h1, -, h2, -⟩ := C25_btree_retain (Nat.le_refl 1) rm Sharing.unique
    (fun (n : Nat) _ v => (n + 1, v, decide (n < 2))) 0
  refine ⟨_, _, _, t, _, m', Avl.Reachable.extend .new ea, rm, ?_, rfl, h1, by decide, ?_⟩
  · rw [hm]; decide
  · rw [hm] at h2
    exact congrArg Prod.snd h2

end Verif.Props
