import Verif.BTree.Remove
import Verif.BTree.NodeIter
import Verif.Avl.Misc
/-!
# Model of the `BTreeMap` API and its refinement lemmas

Operations that consume the map go through `into_iter`, which behaves differently for shared
and unshared nodes; `Sharing` is an arbitrary assignment of "last reference or not".
-/
set_option linter.unusedSectionVars false
namespace Verif.BTree
open Std Node
universe u v
variable {K : Type u} {V : Type v}

/-- For every node, which of the `Arc`s in it can be unwrapped. -/
structure Sharing (K : Type u) (V : Type v) where
  annot : Node K V → ANode K V
  forget_annot : ∀ n, (annot n).forget = n

mutual
/-- All `Arc`s unique (`b = true`) or all shared. -/
def ANode.all (b : Bool) : Node K V → ANode K V
  | .mk es ks => .mk b es (ANode.alls b ks)
def ANode.alls (b : Bool) : List (Node K V) → List (ANode K V)
  | [] => []
  | c :: ks => ANode.all b c :: ANode.alls b ks
end

mutual
theorem ANode.forget_all (b : Bool) : ∀ n : Node K V, (ANode.all b n).forget = n
  | .mk es ks => by rw [ANode.all, ANode.forget, ANode.forgets_alls]
theorem ANode.forgets_alls (b : Bool) : ∀ ks : List (Node K V),
    ANode.forgets (ANode.alls b ks) = ks
  | [] => by rw [ANode.alls, ANode.forgets]
  | c :: ks => by rw [ANode.alls, ANode.forgets, ANode.forget_all, ANode.forgets_alls]
end

/-- Every `Arc` is unique. -/
def Sharing.unique : Sharing K V := ⟨ANode.all true, ANode.forget_all true⟩
/-- Every `Arc` is shared. -/
def Sharing.shared : Sharing K V := ⟨ANode.all false, ANode.forget_all false⟩

namespace BTreeMap

/-- The entries of the map in key order (abstraction function; `iter` yields exactly these,
C22). -/
def abs (m : BTreeMap K V) : List (K × V) :=
  match m.root with
  | none => []
  | some n => n.toList

/-- btree.rs:742-760 `iter`. -/
def iter (m : BTreeMap K V) : InnerIter (NIter (K × V) (Node K V)) := iterOf m.len m.root

/-- btree.rs:1019-1031 `into_iter`. -/
def intoIter (o : Sharing K V) (m : BTreeMap K V) : InnerIter (IntoErg K V) :=
  intoIterOf m.len (m.root.map o.annot)

/-- `for (k, v) in m`: everything `into_iter` yields. Every yielding call decrements `len`, so
`len + 1` calls are enough. Also btree.rs:2296-2306 `From<BTreeMap> for Vec`. -/
def intoList (o : Sharing K V) (m : BTreeMap K V) : Option (List (K × V)) :=
  intoOps.drain (m.len + 1) (m.intoIter o)

/-- `for e in &m`: everything `iter` yields. -/
def iterList (m : BTreeMap K V) : Option (List (K × V)) :=
  nodeOps.drain (m.len + 1) m.iter

/-- btree.rs:553-559 `append`: the two maps afterwards (`other` is taken, 970-974 `default`). -/
def append [Ord K] (N : Nat) (o : Sharing K V) (m other : BTreeMap K V) :
    Option (BTreeMap K V × BTreeMap K V) :=
  match other.intoList o with
  | none => none
  | some es => (m.extend N es).map (fun m' => (m', new))

/-- How a `retain` call ends: normally, with the closure's final state, or by a panic that
unwinds out of it and leaves the map as given. -/
inductive RetainEnd (σ M : Type _) where
  | done (s : σ) (m : M)
  | panicked (m : M)

/-- btree.rs:911-922: `into_iter().filter_map(..).collect()`; the closure returns its new
state, the new value and its verdict, or `none` if it panics. -/
def retainLoop [Ord K] {σ : Type _} (N : Nat) (f : σ → K → V → Option (σ × V × Bool)) :
    List (K × V) → σ → BTreeMap K V → Option (σ × BTreeMap K V)
  | [], s, m => some (s, m)
  | e :: es, s, m =>
    match f s e.1 e.2 with
    | none => none
    | some (s', v', keep) =>
      if keep then
        match m.insert N e.1 v' with
        | none => none
        | some (m', _) => retainLoop N f es s' m'
      else retainLoop N f es s' m

/-- btree.rs:902-923 `retain`.  `std::mem::take(self)` leaves the empty map behind while the
closure runs. -/
def retain [Ord K] {σ : Type _} (N : Nat) (o : Sharing K V) (m : BTreeMap K V)
    (f : σ → K → V → Option (σ × V × Bool)) (s : σ) : RetainEnd σ (BTreeMap K V) :=
  match m.intoList o with
  | none => .panicked new
  | some es =>
    match retainLoop N f es s new with
    | none => .panicked new
    | some (s', m') => .done s' m'

/-- btree.rs:925-938 `split_off`: `partition(|(k, _)| key > k)` into two maps. -/
def splitLoop [Ord K] (N : Nat) (p : K → Ordering) :
    List (K × V) → BTreeMap K V → BTreeMap K V → Option (BTreeMap K V × BTreeMap K V)
  | [], a, b => some (a, b)
  | e :: es, a, b =>
    if p e.1 = .gt then
      match a.insert N e.1 e.2 with
      | none => none
      | some (a', _) => splitLoop N p es a' b
    else
      match b.insert N e.1 e.2 with
      | none => none
      | some (b', _) => splitLoop N p es a b'

/-- btree.rs:925-938 `split_off`: what stays and what is returned. -/
def splitOff [Ord K] (N : Nat) (o : Sharing K V) (m : BTreeMap K V) (p : K → Ordering) :
    Option (BTreeMap K V × BTreeMap K V) :=
  match m.intoList o with
  | none => none
  | some es => splitLoop N p es new new

/-- btree.rs:1188-1197 `eq`; `eqE` is `==` on entries. -/
def eqMap (eqE : K × V → K × V → Bool) (a b : BTreeMap K V) : Option Bool :=
  if a.len == b.len then
    match a.iterList, b.iterList with
    | some x, some y => some ((x.zip y).all (fun z => eqE z.1 z.2))
    | _, _ => none
  else some false

/-- btree.rs:1199-1207 `partial_cmp`. -/
def partialCmpMap (cmpE : K × V → K × V → Option Ordering) (a b : BTreeMap K V) :
    Option (Option Ordering) :=
  match a.iterList, b.iterList with
  | some x, some y => some (Spec.lexPartialCmp cmpE x y)
  | _, _ => none

/-- btree.rs:1209-1217 `cmp`. -/
def cmpMap (cmpE : K × V → K × V → Ordering) (a b : BTreeMap K V) : Option Ordering :=
  match a.iterList, b.iterList with
  | some x, some y => some (Spec.lexCmp cmpE x y)
  | _, _ => none

/-- The part of the representation invariant that does not depend on the order of the keys. -/
structure Inv (N : Nat) (m : BTreeMap K V) : Prop where
  len : m.len = m.abs.length
  shape : ∀ n, m.root = some n → ∃ h, Node.Ok N 1 h n

theorem inv_some {N : Nat} {n : Node K V} {h len : Nat} (h1 : Node.Ok N 1 h n)
    (h3 : len = n.toList.length) : (⟨len, some n⟩ : BTreeMap K V).Inv N :=
  ⟨h3, by rintro n' e; cases e; exact ⟨h, h1⟩⟩

/-- `rm_and_rebal` given what the remover does to the root. -/
theorem rmAndRebal_inv {N : Nat} {m : BTreeMap K V} (hN : 1 ≤ N) (h : m.Inv N) {n : Node K V}
    (hr : m.root = some n)
    {remover : Node K V → Option (Option (RemRes K V))} {kv : K × V} {b : Bool} {n' : Node K V}
    {ht : Nat} (he : remover n = some (some (kv, b, n'))) (hshape : RemShape N 1 ht b n')
    (hlen : n'.toList.length + 1 = m.abs.length) :
    ∃ m', m.rmAndRebal remover = some (m', some kv) ∧ m'.Inv N ∧ m'.abs = n'.toList := by
  have hl := h.len
  have h0 : m.len ≠ 0 := by omega
  unfold rmAndRebal
  rw [hr]
  dsimp only
  rw [he]
  dsimp only
  rw [if_neg h0]
  unfold RemShape at hshape
  cases b with
  | false =>
    simp only [Bool.false_eq_true, if_false] at hshape
    refine ⟨⟨m.len - 1, some n'⟩, by simp [shrink], inv_some hshape (by omega), rfl⟩
  | true =>
    simp only [if_true] at hshape
    obtain ⟨hok, -⟩ := hshape
    by_cases hem : n'.elems = []
    · obtain ⟨es, ks⟩ := n'
      simp only [elems] at hem
      subst hem
      cases ht with
      | zero =>
        obtain ⟨rfl, -, -⟩ := hok
        refine ⟨⟨m.len - 1, none⟩, by simp [shrink, elems, kids], ⟨?_, by simp⟩, by simp [abs]⟩
        show m.len - 1 = 0
        simp at hlen; omega
      | succ ht =>
        obtain ⟨hk, -, -, hkk⟩ := hok
        match ks, hk with
        | [c], _ =>
          have hc : toList (Node.mk [] [c]) = toList c := by simp [inter_cons]
          rw [hc] at hlen ⊢
          refine ⟨⟨m.len - 1, some c⟩, by simp [shrink, elems, kids], ?_, rfl⟩
          exact inv_some ((hkk c (by simp)).mono (by
            have := (hkk c (by simp)).lo_le; omega)) (by omega)
    · have : n'.elems.isEmpty = false := by simpa using hem
      have e : shrink true n' = some (some n') := by
        rw [shrink, this]; rfl
      refine ⟨⟨m.len - 1, some n'⟩, by rw [e], ?_, rfl⟩
      refine inv_some (hok.mono ?_) (by omega)
      exact List.length_pos_iff.2 hem

theorem intoList_inv {N : Nat} {m : BTreeMap K V} (hN : 1 ≤ N) (h : m.Inv N) (o : Sharing K V) : m.intoList o = some m.abs := by
  unfold intoList intoIter
  cases hr : m.root with
  | none => simp [abs, hr, intoIterOf, NodeIterOps.drain, NodeIterOps.next]
  | some n =>
    obtain ⟨ht, h1⟩ := h.shape n hr
    have h2 : m.abs = n.toList := by simp [abs, hr]
    have hl := h.len
    rw [h2] at hl ⊢
    have hf := o.forget_annot n
    have := into_drain (n := o.annot n) (h := ht + 1) (len := m.len) (fuel := m.len + 1)
      (by rw [hf]; exact h1.iterOk hN false (Nat.le_refl 1)) (by rw [hf]; omega)
      (by rw [hf]; omega)
    rw [hf] at this
    exact this

theorem iterList_inv {N : Nat} {m : BTreeMap K V} (hN : 1 ≤ N) (h : m.Inv N) : m.iterList = some m.abs := by
  unfold iterList iter
  cases hr : m.root with
  | none => simp [abs, hr, iterOf, NodeIterOps.drain, NodeIterOps.next]
  | some n =>
    obtain ⟨ht, h1⟩ := h.shape n hr
    have h2 : m.abs = n.toList := by simp [abs, hr]
    have hl := h.len
    rw [h2] at hl ⊢
    obtain ⟨m1, m2, -⟩ := (nodeSpec true).make_ok (c := n) ⟨ht + 1, h1.iterOk hN true (Nat.le_refl 1)⟩
    have hw : witems toList [(borrowedOps Node.elems Node.kids Node.depth).make n] = toList n := by
      rw [witems_cons, m2]; simp
    have := (nodeSpec (K := K) (V := V) true).drain (m.len + 1) (it := iterOf m.len (some n))
      (by simpa [iterOf, nodeOps] using m1) (by simp only [iterOf, nodeOps, hw]; omega)
      (by simp only [iterOf, nodeOps, hw]; omega)
    simp only [iterOf, nodeOps, hw] at this ⊢
    exact this

/-- Representation invariant. -/
def WF [Ord K] (N : Nat) (m : BTreeMap K V) : Prop :=
  match m.root with
  | none => m.len = 0
  | some n => (∃ h, Node.Ok N 1 h n) ∧ Sorted n.toList ∧ m.len = n.toList.length

section
variable [Ord K] {N : Nat} {m : BTreeMap K V}

theorem WF.sorted (h : WF N m) : Sorted m.abs := by
  unfold WF at h; unfold abs
  split at h
  · exact List.Pairwise.nil
  · exact h.2.1

theorem WF.len_eq (h : WF N m) : m.len = m.abs.length := by
  unfold WF at h; unfold abs
  split at h
  · exact h
  · exact h.2.2

theorem WF.root {n : Node K V} (h : WF N m) (hr : m.root = some n) :
    (∃ h, Node.Ok N 1 h n) ∧ m.abs = n.toList := by
  unfold WF at h; unfold abs
  rw [hr] at h ⊢
  exact ⟨h.1, rfl⟩

theorem wf_new : WF N (new : BTreeMap K V) := rfl

theorem WF.inv (h : WF N m) : m.Inv N := by
  obtain ⟨len, _ | n⟩ := m
  · exact ⟨h, by simp⟩
  · exact ⟨h.2.2, by rintro _ ⟨⟩; exact h.1⟩

theorem Inv.wf (h : m.Inv N) (hs : Sorted m.abs) : WF N m := by
  obtain ⟨len, _ | n⟩ := m
  · exact h.len
  · exact ⟨h.shape n rfl, hs, h.len⟩

theorem wf_some {n : Node K V} {h len : Nat} (h1 : Node.Ok N 1 h n) (h2 : Sorted n.toList)
    (h3 : len = n.toList.length) : WF N (⟨len, some n⟩ : BTreeMap K V) := ⟨⟨h, h1⟩, h2, h3⟩

end

section
variable [Ord K] [TransOrd K] {N : Nat} {m : BTreeMap K V}

theorem getKeyValue_spec (h : WF N m) {p : K → Ordering} (hp : IsProbe p) :
    m.getKeyValue p = Spec.find p m.abs := by
  unfold getKeyValue
  cases hr : m.root with
  | none => simp [abs, hr, Spec.find]
  | some n =>
    obtain ⟨⟨ht, h1⟩, h2⟩ := h.root hr
    rw [h2]
    exact get_spec hp h1 (h2 ▸ h.sorted)

theorem containsKey_spec (h : WF N m) {p : K → Ordering} (hp : IsProbe p) :
    m.containsKey p = (Spec.find p m.abs).isSome := by
  unfold containsKey
  cases hr : m.root with
  | none => simp [abs, hr, Spec.find]
  | some n =>
    obtain ⟨⟨ht, h1⟩, h2⟩ := h.root hr
    rw [h2]
    exact contains_spec hp h1 (h2 ▸ h.sorted)

theorem getMut_spec (h : WF N m) {p : K → Ordering} (hp : IsProbe p) (g : V → V) :
    WF N (m.getMut p g).1 ∧ (m.getMut p g).1.abs = updAt p g m.abs ∧
      (m.getMut p g).1.len = m.len ∧ (m.getMut p g).2 = (Spec.find p m.abs).isSome := by
  unfold getMut
  cases hr : m.root with
  | none =>
    refine ⟨h, ?_, rfl, ?_⟩
    · simp [abs, hr, updAt]
    · simp [abs, hr, Spec.find]
  | some n =>
    obtain ⟨⟨ht, h1⟩, h2⟩ := h.root hr
    have hs := h.sorted
    have hl := h.len_eq
    rw [h2] at hs hl ⊢
    obtain ⟨g1, g2, g3⟩ := Node.getMut_spec hp g h1 hs
    have hk : (updAt p g n.toList).map (·.1) = n.toList.map (·.1) := by
      simp only [updAt, List.map_map]
      apply List.map_congr_left
      intro e _
      simp only [Function.comp]; split <;> rfl
    refine ⟨wf_some g1 ?_ ?_, g2, rfl, g3⟩
    · rw [g2]; exact Sorted.of_keys_sublist hs (by rw [hk]; exact List.Sublist.refl _)
    · rw [g2, hl]; simp [updAt]

theorem insert_spec (h : WF N m) (k : K) (v : V) :
    ∃ m', m.insert N k v = some (m', (Spec.find (compare k) m.abs).map (·.2)) ∧ WF N m' ∧
      m'.abs = Spec.insert k v m.abs := by
  unfold insert
  cases hr : m.root with
  | none =>
    refine ⟨⟨1, some (.mk [(k, v)] [])⟩, ?_, ?_, ?_⟩
    · simp [abs, hr, Spec.find]
    · exact wf_some (h := 0) ⟨rfl, by simp, by simp⟩ (by simp [Sorted]) (by simp)
    · simp [abs, hr, Spec.insert]
  | some n =>
    obtain ⟨⟨ht, h1⟩, h2⟩ := h.root hr
    have hs := h.sorted
    have hl := h.len_eq
    rw [h2] at hs hl ⊢
    obtain ⟨r, er, hi⟩ := ins_spec k v h1 hs
    have hs' := sorted_insert (k := k) (v := v) hs
    have hlen := length_insert (k := k) (v := v) hs
    dsimp only
    rw [er]
    cases r with
    | replaced o n' =>
      obtain ⟨i1, i2, i3⟩ := hi
      rw [i3]
      refine ⟨_, rfl, wf_some i1 (i2 ▸ hs') ?_, i2⟩
      cases hf : Spec.find (compare k) n.toList with
      | none => simp [hf] at i3
      | some x => rw [i2, hlen, hf, hl]; rfl
    | absorbed n' =>
      obtain ⟨⟨i1, i2⟩, i3⟩ := hi
      rw [i3] at hlen ⊢
      exact ⟨_, rfl, wf_some i1 (i2 ▸ hs') (by rw [i2, hlen, hl]; rfl), i2⟩
    | split lhs kv n' =>
      obtain ⟨⟨i1, i2, i3⟩, i4⟩ := hi
      rw [i4] at hlen ⊢
      have e : toList (.mk [kv] [lhs, n']) = Spec.insert k v n.toList := by
        rw [← i3]; simp [inter_cons]
      refine ⟨_, rfl, wf_some (h := ht + 1) ?_ (e ▸ hs') (by rw [e, hlen, hl]; rfl), e⟩
      refine ⟨rfl, by simp, by simp, ?_⟩
      intro c hc
      simp only [List.mem_cons, List.not_mem_nil, or_false] at hc
      rcases hc with rfl | rfl
      · exact i1
      · exact i2

theorem extend_spec (h : WF N m) (es : List (K × V)) :
    ∃ m', m.extend N es = some m' ∧ WF N m' ∧ m'.abs = Spec.insertAll m.abs es := by
  induction es generalizing m with
  | nil => exact ⟨m, rfl, h, rfl⟩
  | cons e es ih =>
    obtain ⟨m1, e1, w1, a1⟩ := insert_spec h e.1 e.2
    obtain ⟨m2, e2, w2, a2⟩ := ih w1
    refine ⟨m2, by simp [extend, e1, e2], w2, ?_⟩
    rw [a2, a1]; rfl

/-- `rm_and_rebal` on a sorted tree. -/
theorem rmAndRebal_some (hN : 1 ≤ N) (h : WF N m) {n : Node K V} (hr : m.root = some n)
    {remover : Node K V → Option (Option (RemRes K V))} {kv : K × V} {b : Bool} {n' : Node K V}
    {ht : Nat} (he : remover n = some (some (kv, b, n'))) (hshape : RemShape N 1 ht b n')
    (hs' : Sorted n'.toList) (hlen : n'.toList.length + 1 = m.abs.length) :
    ∃ m', m.rmAndRebal remover = some (m', some kv) ∧ WF N m' ∧ m'.abs = n'.toList := by
  obtain ⟨m', e, h', ht⟩ := rmAndRebal_inv hN h.inv hr he hshape hlen
  exact ⟨m', e, h'.wf (by rw [ht]; exact hs'), ht⟩

theorem popFirst_spec (hN : 1 ≤ N) (h : WF N m) :
    ∃ m', m.popFirst N = some (m', m.abs.head?) ∧ WF N m' ∧ m'.abs = m.abs.tail := by
  cases hr : m.root with
  | none =>
    refine ⟨m, ?_, h, ?_⟩
    · simp [popFirst, rmAndRebal, abs, hr]
    · simp [abs, hr]
  | some n =>
    obtain ⟨⟨ht, h1⟩, h2⟩ := h.root hr
    obtain ⟨kv, b, n', e, hs, htl⟩ := Node.popFirst_spec hN h1 (Nat.le_refl 1) hN
    have hso := h.sorted
    rw [h2, htl] at hso
    obtain ⟨m', e', w, a⟩ := rmAndRebal_some hN h hr (remover := fun n => (n.popFirst N).map some)
      (congrArg (Option.map some) e) hs (sorted_cons.1 hso).2 (by rw [h2, htl]; simp)
    refine ⟨m', ?_, w, ?_⟩
    · rw [popFirst, e', h2, htl]; rfl
    · rw [a, h2, htl]; rfl

theorem popLast_spec (hN : 1 ≤ N) (h : WF N m) :
    ∃ m', m.popLast N = some (m', m.abs.getLast?) ∧ WF N m' ∧ m'.abs = m.abs.dropLast := by
  cases hr : m.root with
  | none =>
    refine ⟨m, ?_, h, ?_⟩
    · simp [popLast, rmAndRebal, abs, hr]
    · simp [abs, hr]
  | some n =>
    obtain ⟨⟨ht, h1⟩, h2⟩ := h.root hr
    obtain ⟨kv, b, n', e, hs, htl⟩ := Node.popLast_spec hN h1 (Nat.le_refl 1) hN
    have hso := h.sorted
    rw [h2, htl] at hso
    obtain ⟨m', e', w, a⟩ := rmAndRebal_some hN h hr (remover := fun n => (n.popLast N).map some)
      (congrArg (Option.map some) e) hs (sorted_append.1 hso).1 (by rw [h2, htl]; simp)
    refine ⟨m', ?_, w, ?_⟩
    · rw [popLast, e', h2, htl]; simp
    · rw [a, h2, htl]; simp

theorem remove_spec (hN : 1 ≤ N) (h : WF N m) {p : K → Ordering} (hp : IsProbe p) :
    ∃ m', m.remove N p = some (m', (Spec.find p m.abs).map (·.2)) ∧ WF N m' ∧
      m'.abs = Spec.erase p m.abs := by
  unfold remove
  rw [containsKey_spec h hp]
  cases hf : Spec.find p m.abs with
  | none =>
    refine ⟨m, by simp, h, ?_⟩
    rw [find_eq_none] at hf
    exact (filter_all (fun e he => by simpa using hf e he)).symm
  | some x =>
    simp only [Option.isSome_some, if_true]
    cases hr : m.root with
    | none => simp [abs, hr, Spec.find] at hf
    | some n =>
      obtain ⟨⟨ht, h1⟩, h2⟩ := h.root hr
      have hs := h.sorted
      rw [h2] at hs hf ⊢
      obtain ⟨r, er, hi⟩ := Node.remove_spec hp hN h1 (Nat.le_refl 1) hN hs
      rw [RemOk, hf] at hi
      obtain ⟨b, n', rfl, hsh, htl⟩ := hi
      have hlen := length_erase hp hs
      rw [hf] at hlen
      have hpos : 0 < n.toList.length := by
        cases hn : n.toList with
        | nil => rw [hn] at hf; simp [Spec.find] at hf
        | cons => simp
      obtain ⟨m', e', w, a⟩ := rmAndRebal_some hN h hr (remover := fun n => n.remove N p) er hsh
        (htl ▸ sorted_erase hs) (by rw [htl, h2]; simpa using hlen)
      refine ⟨m', ?_, w, ?_⟩
      · rw [e']; rfl
      · rw [a, htl]

theorem node_first (hN : 1 ≤ N) : ∀ {h lo : Nat} {n : Node K V}, Ok N lo h n → 1 ≤ lo →
    n.first = n.toList.head? ∧ n.first.isSome := by
  intro h
  induction h with
  | zero =>
    intro lo n hn hlo
    obtain ⟨es, ks⟩ := n
    obtain ⟨rfl, h1, -⟩ := hn
    cases es with
    | nil => simp at h1; omega
    | cons e es => simp [first, firstAt]
  | succ h ih =>
    intro lo n hn hlo
    obtain ⟨es, ks⟩ := n
    obtain ⟨hl, h1, -, hk⟩ := hn
    cases ks with
    | nil => simp at hl
    | cons c ks =>
      obtain ⟨i1, i2⟩ := ih (hk c (by simp)) hN
      have e : (Node.mk es (c :: ks)).first = c.first := by
        rw [first, firstAt_eq]; rfl
      rw [e]
      refine ⟨?_, i2⟩
      rw [toList_mk, inter_cons, List.head?_append, ← i1]
      cases hc : c.first with
      | none => simp [hc] at i2
      | some x => rfl

theorem node_last (hN : 1 ≤ N) : ∀ {h lo : Nat} {n : Node K V}, Ok N lo h n → 1 ≤ lo →
    n.last = n.toList.getLast? ∧ n.last.isSome := by
  intro h
  induction h with
  | zero =>
    intro lo n hn hlo
    obtain ⟨es, ks⟩ := n
    obtain ⟨rfl, h1, -⟩ := hn
    obtain ⟨es', e, rfl⟩ := concat_of_pos es (by omega)
    simp [last, lastAt]
  | succ h ih =>
    intro lo n hn hlo
    obtain ⟨es, ks⟩ := n
    obtain ⟨hl, h1, -, hk⟩ := hn
    obtain ⟨ks, c, rfl⟩ := concat_of_pos ks (by omega)
    simp only [List.length_append, List.length_cons, List.length_nil] at hl
    obtain ⟨i1, i2⟩ := ih (hk c (by simp)) hN
    have e : (Node.mk es (ks ++ [c])).last = c.last := by
      rw [last, lastAt_eq]; simp
    rw [e]
    refine ⟨?_, i2⟩
    have e1 := inter_append (ks1 := ks) (ks2 := [c]) (es1 := es) (es2 := []) (by omega)
    simp only [List.append_nil] at e1
    rw [toList_mk, e1, List.getLast?_append, inter_cons]
    simp only [post_nil_nil, List.append_nil, ← i1]
    cases hc : c.last with
    | none => simp [hc] at i2
    | some x => rfl

theorem firstKeyValue_spec (hN : 1 ≤ N) (h : WF N m) : m.firstKeyValue = some m.abs.head? := by
  unfold firstKeyValue
  cases hr : m.root with
  | none => simp [abs, hr]
  | some n =>
    obtain ⟨⟨ht, h1⟩, h2⟩ := h.root hr
    obtain ⟨e1, e2⟩ := node_first hN h1 (Nat.le_refl 1)
    rw [h2, ← e1]
    dsimp only
    cases hc : n.first with
    | none => simp [hc] at e2
    | some x => rfl

theorem lastKeyValue_spec (hN : 1 ≤ N) (h : WF N m) : m.lastKeyValue = m.abs.getLast? := by
  unfold lastKeyValue
  cases hr : m.root with
  | none => simp [abs, hr]
  | some n =>
    obtain ⟨⟨ht, h1⟩, h2⟩ := h.root hr
    rw [h2]
    exact (node_last hN h1 (Nat.le_refl 1)).1

theorem intoList_spec (hN : 1 ≤ N) (h : WF N m) (o : Sharing K V) : m.intoList o = some m.abs :=
  intoList_inv hN h.inv o

theorem iterList_spec (hN : 1 ≤ N) (h : WF N m) : m.iterList = some m.abs :=
  iterList_inv hN h.inv

theorem iter_run_spec (hN : 1 ≤ N) (h : WF N m) (ds : List Bool) :
    nodeOps.run ds m.iter = some (Spec.dequeRun ds m.abs) := by
  unfold iter
  cases hr : m.root with
  | none =>
    have := (nodeSpec (K := K) (V := V) true).run ds (it := iterOf m.len none) 0
      (by simp [iterOf]) (by simp [iterOf])
    simp only [iterOf, witems_nil] at this
    simp only [nodeOps, iterOf, abs, hr, this]; simp
  | some n =>
    obtain ⟨⟨ht, h1⟩, h2⟩ := h.root hr
    have hl := h.len_eq
    rw [h2] at hl ⊢
    rw [hl]
    exact iter_run (h1.iterOk hN true (Nat.le_refl 1)) ds

theorem intoIter_run_spec (hN : 1 ≤ N) (h : WF N m) (o : Sharing K V) (ds : List Bool) :
    intoOps.run ds (m.intoIter o) = some (Spec.dequeRun ds m.abs) := by
  unfold intoIter
  cases hr : m.root with
  | none =>
    have e : abs m = [] := by simp [abs, hr]
    rw [e]
    simp only [Option.map_none, intoIterOf]
    induction ds with
    | nil => rfl
    | cons d ds ih =>
      cases d <;>
        simp [NodeIterOps.run, NodeIterOps.step, NodeIterOps.next, NodeIterOps.nextBack,
          InnerIter.rev, Spec.dequeRun, Spec.dequeStep, ih]
  | some n =>
    obtain ⟨⟨ht, h1⟩, h2⟩ := h.root hr
    have hl := h.len_eq
    rw [h2] at hl ⊢
    have hf := o.forget_annot n
    have := into_run (n := o.annot n) (h := ht + 1)
      (by rw [hf]; exact h1.iterOk hN true (Nat.le_refl 1)) ds
    rw [hf, ← hl] at this
    exact this

theorem append_spec (hN : 1 ≤ N) {a b : BTreeMap K V} (ha : WF N a) (hb : WF N b)
    (o : Sharing K V) :
    ∃ m', a.append N o b = some (m', new) ∧ WF N m' ∧ m'.abs = Spec.insertAll a.abs b.abs := by
  obtain ⟨m', e, w, ab⟩ := extend_spec ha b.abs
  exact ⟨m', by simp [append, intoList_spec hN hb, e], w, ab⟩

theorem retainLoop_spec {σ : Type _} (f : σ → K → V → σ × V × Bool) :
    ∀ (es : List (K × V)) (s : σ) (m : BTreeMap K V), WF N m →
      ∃ m', retainLoop N (fun s k v => some (f s k v)) es s m =
          some ((Spec.calls f s es).1, m') ∧ WF N m' ∧
        m'.abs = Spec.insertAll m.abs (Spec.calls f s es).2 := by
  intro es
  induction es with
  | nil => intro s m hm; exact ⟨m, rfl, hm, rfl⟩
  | cons e es ih =>
    intro s m hm
    simp only [retainLoop, Spec.calls]
    by_cases hk : (f s e.1 e.2).2.2 = true
    · obtain ⟨m1, e1, w1, a1⟩ := insert_spec hm e.1 (f s e.1 e.2).2.1
      obtain ⟨m2, e2, w2, a2⟩ := ih (f s e.1 e.2).1 m1 w1
      refine ⟨m2, ?_, w2, ?_⟩
      · simp only [hk, if_true, e1, e2]
      · rw [a2, a1]; simp only [hk, if_true]; rfl
    · obtain ⟨m2, e2, w2, a2⟩ := ih (f s e.1 e.2).1 m hm
      refine ⟨m2, ?_, w2, ?_⟩
      · simp only [hk, Bool.false_eq_true, if_false, e2]
      · rw [a2]; simp only [hk, Bool.false_eq_true, if_false]

theorem calls_keys {σ : Type _} (f : σ → K → V → σ × V × Bool) (s : σ) (l : List (K × V)) :
    ((Spec.calls f s l).2.map (·.1)).Sublist (l.map (·.1)) := by
  induction l generalizing s with
  | nil => exact List.Sublist.refl _
  | cons e l ih =>
    simp only [Spec.calls]
    split
    · exact (ih _).cons_cons _
    · exact (ih _).cons _

theorem retain_spec {σ : Type _} (hN : 1 ≤ N) (h : WF N m) (o : Sharing K V)
    (f : σ → K → V → σ × V × Bool) (s : σ) :
    ∃ m', m.retain N o (fun s k v => some (f s k v)) s = .done (Spec.calls f s m.abs).1 m' ∧
      WF N m' ∧ m'.abs = (Spec.calls f s m.abs).2 := by
  obtain ⟨m', e, w, a⟩ := retainLoop_spec (N := N) f m.abs s new wf_new
  refine ⟨m', by simp [retain, intoList_spec hN h, e], w, ?_⟩
  rw [a]
  exact Spec.insertAll_sorted (Sorted.of_keys_sublist h.sorted (calls_keys f s m.abs))

theorem splitLoop_spec (p : K → Ordering) :
    ∀ (es : List (K × V)) (a b : BTreeMap K V), WF N a → WF N b →
      ∃ a' b', splitLoop N p es a b = some (a', b') ∧ WF N a' ∧ WF N b' ∧
        a'.abs = Spec.insertAll a.abs (es.filter (fun e => p e.1 == .gt)) ∧
        b'.abs = Spec.insertAll b.abs (es.filter (fun e => p e.1 != .gt)) := by
  intro es
  induction es with
  | nil => intro a b ha hb; exact ⟨a, b, rfl, ha, hb, rfl, rfl⟩
  | cons e es ih =>
    intro a b ha hb
    simp only [splitLoop]
    by_cases hk : p e.1 = .gt
    · obtain ⟨a1, e1, w1, x1⟩ := insert_spec ha e.1 e.2
      obtain ⟨a2, b2, e2, w2, w3, x2, x3⟩ := ih a1 b w1 hb
      refine ⟨a2, b2, ?_, w2, w3, ?_, ?_⟩
      · simp only [hk, if_true, e1, e2]
      · rw [x2, x1]; simp only [List.filter_cons, hk, beq_self_eq_true, if_true]; rfl
      · rw [x3]; simp [hk]
    · obtain ⟨b1, e1, w1, x1⟩ := insert_spec hb e.1 e.2
      obtain ⟨a2, b2, e2, w2, w3, x2, x3⟩ := ih a b1 ha w1
      refine ⟨a2, b2, ?_, w2, w3, ?_, ?_⟩
      · simp only [hk, if_false, e1, e2]
      · rw [x2]; simp [hk]
      · rw [x3, x1]
        have : (p e.1 != .gt) = true := by simp [hk]
        simp only [List.filter_cons, this, if_true]; rfl

theorem splitOff_spec (hN : 1 ≤ N) (h : WF N m) (o : Sharing K V) (p : K → Ordering) :
    ∃ a b, m.splitOff N o p = some (a, b) ∧ WF N a ∧ WF N b ∧
      a.abs = Spec.below p m.abs ∧ b.abs = Spec.atLeast p m.abs := by
  obtain ⟨a, b, e, w1, w2, x1, x2⟩ := splitLoop_spec (N := N) p m.abs new new wf_new wf_new
  refine ⟨a, b, by simp [splitOff, intoList_spec hN h, e], w1, w2, ?_, ?_⟩
  · rw [x1]; exact Spec.insertAll_sorted (h.sorted.filter _)
  · rw [x2]; exact Spec.insertAll_sorted (h.sorted.filter _)

end
end BTreeMap
end Verif.BTree
