import Verif.Lib.Debug
import Verif.Props.AvlMap
import Verif.Props.BTreeMap
import Verif.Props.Sets
import Verif.Props.Stack
/-!
# `Debug` output (C70)
-/
set_option linter.unusedSectionVars false
namespace Verif.Props
open Std Verif.Lib Verif.Demo

/-- A list between brackets: on one line separated by commas, or, with `#`, each entry on lines of
its own, indented and followed by a comma. -/
def bracketed (alt : Bool) (o c : String) (l : List String) : String :=
  if alt then
    match l with
    | [] => o ++ c
    | _ => o ++ "\n" ++ l.foldl (fun acc s => acc ++ pad (s ++ ",\n")) "" ++ c
  else o ++ ", ".intercalate l ++ c

theorem dbgEntries_plain : ∀ (l : List String) (acc : String),
    dbgEntries false true acc l = acc ++ l.foldl (fun a s => a ++ (", " ++ s)) ""
  | [], acc => by simp [dbgEntries]
  | s :: l, acc => by
    have h : ∀ (l : List String) (a : String), l.foldl (fun a s => a ++ (", " ++ s)) a =
        a ++ l.foldl (fun a s => a ++ (", " ++ s)) "" := by
      intro l
      induction l with
      | nil => simp
      | cons x l ih =>
        intro a
        simp only [List.foldl_cons]
        rw [ih, ih ("" ++ _)]
        simp [String.append_assoc]
    rw [dbgEntries, dbgEntries_plain l]
    simp only [dbgEntry, List.foldl_cons]
    rw [h l ("" ++ _)]
    simp [String.append_assoc]

theorem intercalate_foldl : ∀ (l : List String) (s : String),
    ", ".intercalate (s :: l) = s ++ l.foldl (fun a s => a ++ (", " ++ s)) ""
  | [], s => by simp
  | t :: l, s => by
    have h : ∀ (l : List String) (a : String), l.foldl (fun a s => a ++ (", " ++ s)) a =
        a ++ l.foldl (fun a s => a ++ (", " ++ s)) "" := by
      intro l
      induction l with
      | nil => simp
      | cons x l ih =>
        intro a
        simp only [List.foldl_cons]
        rw [ih, ih ("" ++ _)]
        simp [String.append_assoc]
    rw [String.intercalate_cons_cons, intercalate_foldl l t, List.foldl_cons, h l ("" ++ _)]
    simp [String.append_assoc]

theorem dbgEntries_alt : ∀ (l : List String) (acc : String),
    dbgEntries true true acc l = acc ++ l.foldl (fun acc s => acc ++ pad (s ++ ",\n")) ""
  | [], acc => by simp [dbgEntries]
  | s :: l, acc => by
    have h : ∀ (l : List String) (a : String), l.foldl (fun acc s => acc ++ pad (s ++ ",\n")) a =
        a ++ l.foldl (fun acc s => acc ++ pad (s ++ ",\n")) "" := by
      intro l
      induction l with
      | nil => simp
      | cons x l ih =>
        intro a
        simp only [List.foldl_cons]
        rw [ih, ih ("" ++ _)]
        simp [String.append_assoc]
    rw [dbgEntries, dbgEntries_alt l]
    simp only [dbgEntry, List.foldl_cons]
    rw [h l ("" ++ _)]
    simp [String.append_assoc]

theorem dbgEntries_bracketed (alt : Bool) (o c : String) (l : List String) :
    dbgEntries alt false o l ++ c = bracketed alt o c l := by
  cases l with
  | nil => cases alt <;> simp [dbgEntries, bracketed]
  | cons s l =>
    cases alt with
    | false =>
      have e : bracketed false o c (s :: l) = o ++ ", ".intercalate (s :: l) ++ c := rfl
      rw [e, dbgEntries, dbgEntries_plain, intercalate_foldl]
      simp [dbgEntry, String.append_assoc]
    | true =>
      have e := dbgEntries_alt (s :: l) (o ++ "\n")
      simp only [dbgEntries, dbgEntry, bracketed, if_true, Bool.false_eq_true, if_false] at e ⊢
      rw [← e]
      simp

section
variable {K V : Type} [Ord K] [TransOrd K]

/-- C70, `AvlMap`: the output is made from the entries in order of keys and nothing else. -/
theorem C70_avl {m : Avl.AvlMap K V} (h : Avl.Reachable m) (dk : Printer K) (dv : Printer V)
    (alt : Bool) :
    avlMapFmt dk dv alt m = some ("AvlMap(" ++
      bracketed alt "{" "}" (m.abs.map (fun e => dk alt e.1 ++ ": " ++ dv alt e.2)) ++ ")") := by
  rw [avlMapFmt, Avl.AvlMap.iterList_spec h.wf]
  simp [debugMap, dbgEntries_bracketed, List.map_map, Function.comp_def]

/-- C70, `BTreeMap`. -/
theorem C70_btree {N : Nat} (hN : 1 ≤ N) {m : BTree.BTreeMap K V} (h : BTree.Reachable N m)
    (dk : Printer K) (dv : Printer V) (alt : Bool) :
    btreeMapFmt dk dv alt m = some (
      bracketed alt "{" "}" (m.abs.map (fun e => dk alt e.1 ++ ": " ++ dv alt e.2))) := by
  rw [btreeMapFmt, BTree.BTreeMap.iterList_spec hN (h.wf hN)]
  simp [debugMap, dbgEntries_bracketed, List.map_map, Function.comp_def]

/-- C70, `AvlSet`. -/
theorem C70_avlset {s : Avl.AvlSet K} (h : Avl.SetReachable s) (d : Printer K) (alt : Bool) :
    avlSetFmt d alt s = some ("AvlSet(" ++ bracketed alt "{" "}" (s.elems.map (d alt)) ++ ")") := by
  rw [avlSetFmt, Avl.AvlMap.iterList_spec h.map.wf]
  simp [debugSet, dbgEntries_bracketed, Avl.AvlSet.elems, List.map_map, Function.comp_def]

/-- C70, `BTreeSet`. -/
theorem C70_btreeset {N : Nat} (hN : 1 ≤ N) {s : BTree.BTreeSet K} (h : BTree.SetReachable N s)
    (d : Printer K) (alt : Bool) :
    btreeSetFmt d alt s =
      some ("BTreeSet(" ++ bracketed alt "{" "}" (s.elems.map (d alt)) ++ ")") := by
  rw [btreeSetFmt, BTree.BTreeMap.iterList_spec hN (h.wf hN)]
  simp [debugSet, dbgEntries_bracketed, BTree.BTreeSet.elems, List.map_map, Function.comp_def]

theorem mapM_isSome {α β : Type} {f : α → Option β} : ∀ {l : List α},
    (∀ x ∈ l, (f x).isSome) → (l.mapM f).isSome
  | [], _ => by simp
  | x :: l, h => by
    obtain ⟨y, hy⟩ := Option.isSome_iff_exists.1 (h x (by simp))
    obtain ⟨ys, hys⟩ := Option.isSome_iff_exists.1
      (mapM_isSome (l := l) (fun z hz => h z (by simp [hz])))
    simp [List.mapM_cons, hy, hys]

theorem btreeWorkFmt_isSome {dk : Printer K} {dv : Printer V} {alt : Bool} {ok : BTree.Node K V → Prop}
    (hok : ∀ c, ok c → c.elems ≠ []) {it : BTree.InnerIter (BTree.NIter (K × V) (BTree.Node K V))}
    (h : ∀ x ∈ it.work, x.Ok true ok) : (btreeWorkFmt dk dv alt it).isSome := by
  refine mapM_isSome fun e he => ?_
  rw [Option.isSome_map]
  refine mapM_isSome fun c hc => ?_
  have hne := hok c ((h e he).1 c hc)
  unfold btreeNodeFmt
  cases hx : c.elems with
  | nil => exact absurd hx hne
  | cons a l =>
    rw [List.getLast?_eq_some_getLast (by simp)]
    simp

/-- C70, the iterators of `BTreeMap`: printing one does not panic, whatever calls were made
(though printing a node without entries would). -/
theorem C70_btree_iter {N : Nat} (hN : 1 ≤ N) {m : BTree.BTreeMap K V} (h : BTree.Reachable N m)
    (dk : Printer K) (dv : Printer V) (alt : Bool) (ds : List Bool) :
    ∃ it, BTree.nodeOps.after ds m.iter = some it ∧ (btreeWorkFmt dk dv alt it).isSome := by
  have w := h.wf hN
  have hi := w.inv
  cases hr : m.root with
  | none =>
    refine ⟨⟨[], 0⟩, ?_, rfl⟩
    have e : m.iter = ⟨[], 0⟩ := by
      have := hi.len
      simp_all [BTree.BTreeMap.abs, BTree.BTreeMap.iter, BTree.iterOf]
    rw [e]
    induction ds with
    | nil => rfl
    | cons d ds ih =>
      cases d <;> simpa [BTree.NodeIterOps.after, BTree.NodeIterOps.step, BTree.NodeIterOps.next,
        BTree.NodeIterOps.nextBack, BTree.InnerIter.rev] using ih
  | some n =>
    obtain ⟨ht, h1⟩ := hi.shape n hr
    have h2 : m.abs = n.toList := by simp [BTree.BTreeMap.abs, hr]
    have hl := hi.len
    rw [h2] at hl
    obtain ⟨m1, m2, -⟩ := (BTree.nodeSpec true).make_ok (c := n)
      ⟨ht + 1, h1.iterOk hN true (Nat.le_refl 1)⟩
    have hw : BTree.witems BTree.Node.toList [(BTree.borrowedOps BTree.Node.elems BTree.Node.kids
        BTree.Node.depth).make n] = BTree.Node.toList n := by
      rw [BTree.witems_cons, m2]; simp
    obtain ⟨it, e1, e2, -⟩ := (BTree.nodeSpec (K := K) (V := V) true).after ds 0
      (it := m.iter) (by simpa [BTree.BTreeMap.iter, hr, BTree.iterOf, BTree.nodeOps] using m1)
      (by simp only [BTree.BTreeMap.iter, hr, BTree.iterOf, BTree.nodeOps, hw]; omega)
    exact ⟨it, e1, btreeWorkFmt_isSome (BTree.nodeSpec true).ne e2⟩

/-- C70, the ranges of `BTreeMap`. -/
theorem C70_btree_range {Q : Type} [Ord Q] [TransOrd Q] {N : Nat} (hN : 1 ≤ N)
    {m : BTree.BTreeMap K V} (h : BTree.Reachable N m) {f : K → Q}
    (hf : ∀ a b, compare (f a) (f b) = compare a b) (lo hi : BTree.QBnd Q)
    {it : BTree.InnerIter (BTree.NIter (K × V) (BTree.Node K V))} (he : m.range f lo hi = some it)
    (dk : Printer K) (dv : Printer V) (alt : Bool) (ds : List Bool) :
    ∃ it', BTree.nodeOps.after ds it = some it' ∧ (btreeWorkFmt dk dv alt it').isSome := by
  have w := h.wf hN
  obtain ⟨r1, r2⟩ := BTree.BTreeMap.range_spec hN w hf lo hi
  have hb : lo.bad hi = false := by
    by_contra hc
    rw [r1 (Or.inl (by simpa using hc))] at he
    cases he
  have hx : ¬ BTree.BTreeMap.BothExclude f lo hi m.abs := by
    intro hc
    rw [r1 (Or.inr hc)] at he
    cases he
  obtain ⟨it2, e, e1, e2, e3⟩ := r2 hb hx
  rw [e] at he
  cases he
  have hle : (Spec.range (lo.bnd f) (hi.bnd f) m.abs).length ≤ m.len := by
    rw [w.len_eq]; exact List.length_filter_le _ _
  obtain ⟨it', a1, a2, -⟩ := (BTree.nodeSpecN (K := K) (V := V) hN).after ds
    (m.len - (Spec.range (lo.bnd f) (hi.bnd f) m.abs).length) e2 (by rw [e3, e1]; omega)
  exact ⟨it', a1, btreeWorkFmt_isSome (BTree.nodeSpecN hN).ne a2⟩

end

section
open Verif.Heap Verif.Stack
variable {T : Type}

/-- C70, `Stack`: the output is made from the length and the elements from the top; afterwards all
stacks show what they showed. -/
theorem C70_stack {c : Cmps T} {st : State T} (hr : Reached c st) {i : Nat} {l : List T}
    (hs : Shows c st i l) (d : Printer T) (alt : Bool) :
    ∃ s, st.regs[i]? = some (some s) ∧ ∃ mem, (stackFmt d alt s).exec st.mem = some (mem, some
        ("Stack { len: " ++ toString l.length ++ ", elems: TOP" ++
          bracketed alt "[" "]" (l.map (d alt)) ++ "BOT }")) ∧
      ∀ j r, Shows c st j r → Shows c { st with mem := mem } j r := by
  obtain ⟨ls, hsim⟩ := hr.sim
  have hl := hsim.of_shows hs
  obtain ⟨M, hR, hO⟩ := id hsim
  rcases hR.get i with ⟨e1, e2⟩ | ⟨s, l', L, M', e1, e2, e3, h4, h5⟩
  · rw [hl] at e2; cases e2
  · rw [hl] at e2
    cases e2
    cases h4 with
    | @some s l _ h4 =>
      refine ⟨s, e1, ?_⟩
      have hw : wp (stackFmt d alt s) L (fun x L' => L' = L ∧ x =
          "Stack { len: " ++ toString l.length ++ ", elems: TOP" ++
          bracketed alt "[" "]" (l.map (d alt)) ++ "BOT }") := by
        refine wp_bind (wp_conseq (iter_spec h4) ?_)
        rintro xs _ ⟨rfl, rfl⟩
        refine wp_pure ⟨rfl, ?_⟩
        rw [debugList, dbgEntries_bracketed, h4.1]
      have hO' := hO
      rw [e3] at hO'
      obtain ⟨mem, x, L', e, ho, rfl, rfl⟩ := wp_exec hw hO'
      refine ⟨mem, e, fun j r hj => ?_⟩
      rw [← e3] at ho
      exact Sim.shows c (st := { st with mem := mem }) ⟨M, hR, ho⟩ (hsim.of_shows hj)

end

/-- A number as text. -/
def natPrinter : Printer Nat := fun _ n => toString n
/-- A key as text. -/
def keyPrinter : Printer CKey := fun _ k => toString k.id

example := C70_avl avl5_reachable keyPrinter natPrinter true
example : avlMapFmt keyPrinter natPrinter false avl5 =
    some "AvlMap({1: 10, 2: 21, 3: 30, 4: 40, 5: 50})" := by
  decide +kernel
example : avlMapFmt keyPrinter natPrinter true ⟨0, .nil⟩ = some "AvlMap({})" := by
  decide +kernel
example := C70_btree (Nat.le_refl 1) bt_reachable keyPrinter natPrinter false
example := C70_avlset sa5_reachable keyPrinter true
example : avlSetFmt keyPrinter true ⟨⟨1, .node ⟨7, 0⟩ () 0 0 .nil .nil⟩⟩ =
    some "AvlSet({\n    7,\n})" := by
  decide +kernel
example := C70_btreeset (Nat.le_refl 1) sb_reachable keyPrinter true
example := C70_btree_iter (Nat.le_refl 1) bt_reachable keyPrinter natPrinter true [true, false, true]
example := C70_btree_range (Nat.le_refl 1) bt_reachable (f := CKey.id) (fun _ _ => rfl)
  (.included 2) (.excluded 9)
  (getD_of_isSome ⟨[], 0⟩ (by decide +kernel)) keyPrinter natPrinter true [true, false, false]
example : (BTree.nodeOps.after [true] bt.iter).bind (btreeWorkFmt keyPrinter natPrinter false) =
    some [([("2", "21")], ["Node(3..3)"]), ([("4", "40")], ["Node(7..9)"])] := by
  decide +kernel
-- printing an empty node would panic
example : btreeNodeFmt keyPrinter false (⟨[], []⟩ : BTree.Node CKey Nat) = none := rfl
example := C70_stack demo_reached demo_shows.1 natPrinter false

end Verif.Props
