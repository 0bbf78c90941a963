import Verif.FixedHeap.Map
import Verif.FixedHeap.Ops
import Verif.FixedHeap.IterSpec
import Verif.Fixed.IterSame
import Verif.BTreeHeap.MapSpec
/-!
# `btree::fixed::BTreeMap` on reference-counted memory does what it does on values
-/
set_option linter.unusedSectionVars false
namespace Verif.FixedH
open Heap Heap.Machine BTreeH Fixed Std
open BTree (Node)
open BTree.Node (Ok inter post RemRes)
open Verif.Avl (slotsOf seenOf)
open Verif.AvlH (updF)

variable {K V Q : Type}

/-- The map in memory is the value. -/
def FR (h : HMap) (m : FMap K V) (L : Multiset (Handle (ND K V))) : Prop :=
  ∃ r, h = ⟨m.len, r⟩ ∧ L = own r (vtO m.root)

/-! ## Sizes -/

theorem costs_inter : ∀ {ks : List (Node K V)} {es : List (K × V)}, ks.length = es.length + 1 →
    (∀ c ∈ ks, nodeCost c ≤ 2 * c.toList.length) →
    nodeCosts ks + 2 * es.length ≤ 2 * (inter ks es).length := by
  intro ks
  induction ks with
  | nil => intro es h; simp at h
  | cons c ks ih =>
    intro es h hk
    have hc := hk c (by simp)
    cases es with
    | nil =>
      have : ks = [] := by simpa using h
      subst this
      simp [BTree.Node.inter_cons, nodeCosts]; exact hc
    | cons e es =>
      have := ih (es := es) (by simpa using h) (fun c hc => hk c (by simp [hc]))
      simp only [BTree.Node.inter_cons, BTree.Node.post_cons, List.length_append,
        List.length_cons, nodeCosts]
      omega

/-- No tree has more nodes than entries. -/
theorem cost_ok : ∀ {h lo : Nat} {n : Node K V}, Ok MIN lo h n → 1 ≤ lo →
    nodeCost n ≤ 2 * n.toList.length := by
  intro h
  induction h with
  | zero =>
    rintro lo ⟨es, ks⟩ ⟨rfl, h1, -⟩ hlo
    rw [nodeCost_eq]
    simp [BTree.Node.kids, nodeCosts]
    omega
  | succ h ih =>
    rintro lo ⟨es, ks⟩ ⟨hl, h1, -, hk⟩ hlo
    have := costs_inter hl (fun c hc => ih (hk c hc) (by decide))
    rw [nodeCost_eq, BTree.Node.toList_mk]
    simp only [BTree.Node.kids]
    omega

section
variable [Ord K] {m : FMap K V}

/-- No tree is deeper than it has entries. -/
theorem dep_len (h : m.WF) {nd : Node K V} (hr : m.root = some nd) : (vt nd).Dep m.len := by
  obtain ⟨ht, h1⟩ := h.shape nd hr
  have h3 := BTree.ok_size_root h1
  have h4 : 2 ^ ht ≤ (MIN + 1) ^ ht := Nat.pow_le_pow_left (by decide) _
  have h5 : ht < 2 ^ ht := Nat.lt_two_pow_self
  have h6 := h.len
  simp only [FMap.toList, hr] at h6
  exact (dep_of_ok h1).mono (by omega)

theorem dep_lenO (h : m.WF) : (vtO m.root).Dep m.len := by
  cases hr : m.root with
  | none => exact Heap.VT.Dep.nil
  | some nd => exact dep_len h hr

theorem cost_len (h : m.WF) {nd : Node K V} (hr : m.root = some nd) :
    nodeCost nd ≤ 2 * m.len + 1 := by
  obtain ⟨ht, h1⟩ := h.shape nd hr
  have h6 := h.len
  simp only [FMap.toList, hr] at h6
  have := cost_ok h1 (Nat.le_refl 1)
  omega

end

/-! ## Operations -/

section
variable {m : FMap K V} {r : Option Nat} {lin : Bool}

theorem get_spec (hd : ∀ nd, m.root = some nd → (vt nd).Dep m.len) {p : K → Ordering}
    {o : Option V} (h : m.get lin p = some o) :
    wp (FHMap.get lin ⟨m.len, r⟩ p) (own r (vtO m.root))
      (fun x L => x = o ∧ L = own r (vtO m.root)) := by
  refine wp_root (r := r) (root := m.root) 0 (add_zero _).symm ?_ ?_
  · intro hr hm
    subst hr
    simp only [FHMap.get, FMap.get, hm] at h ⊢
    cases h
    exact wp_pure ⟨rfl, rfl⟩
  · intro a nd hr hm
    subst hr
    rw [add_zero]
    simp only [FHMap.get, FMap.get, hm] at h ⊢
    obtain ⟨e, h1, rfl⟩ := Option.map_eq_some_iff.1 h
    refine wp_bind (wp_conseq (getAt_spec (u := false) rfl (hd nd hm) h1) ?_)
    rintro x L ⟨rfl, rfl⟩
    exact wp_pure ⟨rfl, rfl⟩

theorem hgetMut_spec (hd : ∀ nd, m.root = some nd → (vt nd).Dep m.len) {p : K → Ordering}
    {g : V → V} {m' b} (h : m.getMut lin p g = some (m', b)) :
    wp (FHMap.getMut lin ⟨m.len, r⟩ p g) (own r (vtO m.root))
      (fun x L => FR x.1 m' L ∧ x.2 = b) := by
  refine wp_root (r := r) (root := m.root) 0 (add_zero _).symm ?_ ?_
  · intro hr hm
    subst hr
    simp only [FHMap.getMut, FMap.getMut, hm] at h ⊢
    cases h
    exact wp_pure ⟨⟨none, rfl, by simp [hm, vtO]⟩, rfl⟩
  · intro a nd hr hm
    subst hr
    simp only [FHMap.getMut, FMap.getMut, hm] at h ⊢
    obtain ⟨z, h1, h2⟩ := Option.map_eq_some_iff.1 h
    cases h2
    have hd' := hd nd hm
    have hbody : ∀ x, Fits x nd → wp (FixedH.getMut lin m.len p g m.len x)
        (owns x.kids (vts nd.kids) + 0) (Turns z.1 (fun b L => b = z.2 ∧ L = 0)) := by
      intro x hx
      rw [add_zero]
      exact getMut_spec hd' hd' hx h1
    refine wp_bind (wp_conseq (mutArc_spec hd' hbody) ?_)
    rintro x L ⟨L2, rfl, h2, rfl⟩
    refine wp_forget 0 rfl ?_
    rw [add_zero]
    exact wp_pure ⟨⟨_, rfl, rfl⟩, h2⟩

theorem hinsert_spec [Ord K] (hm : m.WF) {k : K} {v : V} {m' old}
    (e : m.insert lin k v = some (m', old)) :
    wp (FHMap.insert lin ⟨m.len, r⟩ k v) (own r (vtO m.root))
      (fun x L => FR x.1 m' L ∧ x.2 = old) := by
  have hW := hm
  refine wp_root (r := r) (root := m.root) 0 (add_zero _).symm ?_ ?_
  · intro hr hm
    subst hr
    simp only [FHMap.insert, FMap.insert, hm] at e ⊢
    cases ep : ivPush MAX (k, v) [] with
    | none => rw [ep] at e; cases e
    | some es =>
      rw [ep] at e
      cases e
      refine wp_alloc (ts := []) 0 rfl (by simp) ?_
      intro a
      refine wp_forget 0 rfl ?_
      rw [add_zero]
      exact wp_pure ⟨⟨_, rfl, by simp [vtO, vt, vts]⟩, rfl⟩
  · intro a nd hr hm
    subst hr
    simp only [FHMap.insert, FMap.insert, hm] at e ⊢
    have hd' := dep_len hW hm
    obtain ⟨ht, hok⟩ := hW.shape nd hm
    cases er : Fixed.ins lin k v nd with
    | none => rw [er] at e; cases e
    | some res =>
      rw [er] at e
      have hbody : ∀ x, Fits x nd → wp (FixedH.ins lin m.len k v m.len x)
          (owns x.kids (vts nd.kids) + 0) (Turns (resNode res) (InsR res)) := by
        intro x hx
        rw [add_zero]
        exact ins_spec hd' hd' hx hok er
      refine wp_bind (wp_conseq (mutArc_spec hd' hbody) ?_)
      rintro ⟨x, y⟩ L ⟨L2, rfl, h2⟩
      cases res with
      | replaced o n' =>
        cases e
        obtain ⟨rfl, rfl⟩ := h2
        refine wp_forget 0 rfl ?_
        rw [add_zero]
        exact wp_pure ⟨⟨_, rfl, rfl⟩, rfl⟩
      | absorbed n' =>
        cases e
        obtain ⟨rfl, rfl⟩ := h2
        refine wp_forget 0 rfl ?_
        rw [add_zero]
        exact wp_pure ⟨⟨_, rfl, rfl⟩, rfl⟩
      | split lhs kv n' =>
        obtain ⟨b, rfl, rfl⟩ := h2
        have e1 : ∀ {α : Type} (a b : α), (kPush a []).bind (kPush b) = some [a, b] := by
          intro α a b
          rw [kPush_eq (l := []) (by simp), Option.bind_some, kPush_eq (l := [] ++ [a])
            (by simp)]
          rfl
        have e2 : ivPush MAX kv [] = some [kv] := ivPush_eq (l := []) kv (by simp)
        simp only [e1, e2] at e
        cases e
        simp only [FHMap.afterRoot, e1, e2]
        refine wp_forget _ rfl ?_
        refine wp_alloc (ts := [vt lhs, vt n']) 0 rfl (by simp [resNode, add_comm]) ?_
        intro c
        refine wp_forget 0 rfl ?_
        rw [add_zero]
        exact wp_pure ⟨⟨_, rfl, by simp [vtO, vt, vts]⟩, rfl⟩

/-- The contents of the root after `shrink`. -/
def shrunk (b : Bool) (n : Node K V) : Node K V :=
  if b && n.elems.isEmpty then .mk n.elems n.kids.dropLast else n

/-- What `shrink` takes out. -/
def ShrR (b : Bool) (n : Node K V) (z : Option (Option Nat)) (L : Multiset (Handle (ND K V))) :
    Prop :=
  if b && n.elems.isEmpty then ∃ k, z = some k ∧ L = own k (vtO n.kids.getLast?)
  else z = none ∧ L = 0

theorem shrink_spec {b : Bool} {n : Node K V} {x : HN K V} (hx : Fits x n)
    (h : (b && n.elems.isEmpty) = true → n.kids.length ≤ KIDS) :
    wp (FHMap.shrink b x) (owns x.kids (vts n.kids)) (Turns (shrunk b n) (ShrR b n)) := by
  obtain ⟨es, ks⟩ := x
  obtain ⟨en, kn⟩ := n
  obtain ⟨h1, h2⟩ := hx
  simp only [BTree.Node.elems, BTree.Node.kids] at h1 h2 h
  subst h1
  by_cases hc : (b && List.isEmpty es) = true
  · have h := h hc
    have e1 : FHMap.shrink b ⟨es, ks⟩ = if ks.isEmpty then .pure (⟨es, ks⟩, some none) else
      match kPop ks with
      | none => .panic
      | some (c, ks) => .pure (⟨es, ks⟩, some c) := if_pos hc
    have e2 : shrunk b (.mk es kn) = .mk es kn.dropLast := if_pos hc
    have e3 : ∀ z L, ShrR b (.mk es kn) z L = ∃ k, z = some k ∧ L = own k (vtO kn.getLast?) :=
      fun z L => if_pos hc
    rw [e1, e2]
    rcases List.eq_nil_or_concat ks with rfl | ⟨ks, k, rfl⟩
    · have : kn = [] := by simpa using h2
      subst this
      rw [if_pos (by rfl)]
      refine wp_pure ⟨0, ⟨rfl, rfl⟩, by simp [BTree.Node.kids, vts], ?_⟩
      rw [e3]
      exact ⟨none, rfl, by simp [vtO]⟩
    · rcases List.eq_nil_or_concat kn with rfl | ⟨kn, c, rfl⟩
      · simp at h2
      · simp only [List.concat_eq_append] at e3 h h2 ⊢
        simp only [List.length_append, List.length_cons, List.length_nil] at h h2
        rw [if_neg (by simp), kPop_eq (by omega)]
        refine wp_pure ⟨own k (vt c), ⟨rfl, ?_⟩, ?_, ?_⟩
        · simp [BTree.Node.kids]; omega
        · simp only [BTree.Node.kids, List.dropLast_concat]
          rw [show vts (kn ++ [c]) = vts kn ++ [vt c] by simp [vts_map]]
          rw [owns_append (by simp [vts_map]; omega)]
          simp
        · rw [e3]
          exact ⟨k, rfl, by simp [vtO]⟩
  · have e1 : FHMap.shrink b ⟨es, ks⟩ = .pure (⟨es, ks⟩, none) := if_neg hc
    have e2 : shrunk b (.mk es kn) = .mk es kn := if_neg hc
    have e3 : ∀ z L, ShrR b (.mk es kn) z L = (z = none ∧ L = 0) := fun z L => if_neg hc
    rw [e1, e2]
    refine wp_pure ⟨0, ⟨rfl, h2⟩, by simp [BTree.Node.kids], ?_⟩
    rw [e3]
    exact ⟨rfl, rfl⟩

/-- What is left of the root and what is taken out of it. -/
def RmR (r : Option (RemRes K V)) (z : Option ((K × V) × Option (Option Nat)))
    (L : Multiset (Handle (ND K V))) : Prop :=
  match r with
  | none => z = none ∧ L = 0
  | some (kv, b, n) => ∃ q, z = some (kv, q) ∧ ShrR b n q L

/-- The contents of the root after `rmRoot`. -/
def rmNode (nd : Node K V) : Option (RemRes K V) → Node K V
  | none => nd
  | some (_, b, n) => shrunk b n

/-- With any recursion bound that suffices. -/
theorem hrm_spec (hd : ∀ nd, m.root = some nd → (vt nd).Dep m.len) {n : Nat}
    (hn : ∀ nd, m.root = some nd → (vt nd).Dep n)
    {p : K → Ordering} {m' old} (e : m.remove lin p = some (m', old)) :
    wp ((FHMap.rmAndRebal ⟨m.len, r⟩ (FixedH.remove lin m.len p n)).bind fun x =>
        .pure (x.1, x.2.map (·.2))) (own r (vtO m.root))
      (fun x L => FR x.1 m' L ∧ x.2 = old) := by
  refine wp_root (r := r) (root := m.root) 0 (add_zero _).symm ?_ ?_
  · intro hr hm
    subst hr
    simp only [FHMap.rmAndRebal, FMap.remove, hm] at e ⊢
    cases e
    exact wp_pure ⟨⟨none, rfl, by simp [hm, vtO]⟩, rfl⟩
  · intro a nd hr hm
    subst hr
    simp only [FHMap.rmAndRebal, FMap.remove, hm] at e ⊢
    have hd' := hd nd hm
    obtain ⟨⟨m2, kv2⟩, e1, e2⟩ := Option.map_eq_some_iff.1 e
    clear e
    cases e2
    rename _ => e
    simp only [FMap.rmAndRebal] at e
    cases er : Fixed.remove lin p nd with
    | none => rw [er] at e; cases e
    | some res =>
      rw [er] at e
      have hkids : ∀ kv b n, res = some (kv, b, n) → m.len ≠ 0 ∧
          ((b && n.elems.isEmpty) = true → n.kids.length ≤ KIDS) := by
        rintro kv b n rfl
        dsimp only at e
        split at e
        · cases e
        · next h0 =>
          refine ⟨h0, fun hc => ?_⟩
          rw [if_pos hc] at e
          split at e
          · next hk => simp at hk; simp [hk]
          · obtain ⟨⟨c, ks⟩, e3, -⟩ := Option.map_eq_some_iff.1 e
            exact (kPop_some e3).1
      have hbody : ∀ x, Fits x nd → wp (FHMap.rmRoot m.len (FixedH.remove lin m.len p n) x)
          (owns x.kids (vts nd.kids) + 0) (Turns (rmNode nd res) (RmR res)) := by
        intro x hx
        rw [add_zero]
        refine wp_bind (wp_conseq (remove_spec (hn nd hm) (hd'.mono (by omega)) hx er) ?_)
        rintro ⟨x', y⟩ L ⟨L2, h1, rfl, rfl, rfl⟩
        cases res with
        | none => exact wp_pure ⟨0, h1, rfl, rfl, rfl⟩
        | some res =>
          obtain ⟨kv, b, n⟩ := res
          obtain ⟨h0, hk⟩ := hkids kv b n rfl
          dsimp only [Option.map] at e ⊢
          rw [if_neg h0, add_zero]
          refine wp_bind (wp_conseq (shrink_spec h1 hk) ?_)
          rintro ⟨x2, z⟩ L ⟨L3, h2, rfl, h3⟩
          exact wp_pure ⟨L3, h2, rfl, z, rfl, h3⟩
      refine wp_bind (wp_bind (wp_conseq (mutArc_spec hd' hbody) ?_))
      rintro ⟨x, z⟩ L ⟨L2, rfl, h2⟩
      cases res with
      | none =>
        obtain ⟨rfl, rfl⟩ := h2
        cases e
        refine wp_forget 0 rfl ?_
        rw [add_zero]
        exact wp_pure (wp_pure ⟨⟨_, rfl, by simp [hm, vtO, rmNode]⟩, rfl⟩)
      | some res =>
        obtain ⟨kv, b, n⟩ := res
        obtain ⟨q, rfl, h3⟩ := h2
        obtain ⟨h0, -⟩ := hkids kv b n rfl
        dsimp only [rmNode] at e ⊢
        rw [if_neg h0] at e
        unfold ShrR at h3
        unfold shrunk
        split at h3
        · next hc =>
          obtain ⟨k, rfl, rfl⟩ := h3
          rw [if_pos hc] at e ⊢
          refine wp_forget _ rfl ?_
          have hdn : (vt n).Dep m.len := remove_dep er hd'
          refine wp_bind (wp_tail _ (wp_drop (D := m.len) ?_) rfl ?_)
          · obtain ⟨l, hl⟩ := Nat.exists_eq_succ_of_ne_zero h0
            rw [hl, Nat.succ_eq_add_one] at hdn ⊢
            obtain ⟨en, kn⟩ := n
            rw [dep_mk] at hdn
            simp only [BTree.Node.kids, BTree.Node.elems]
            rw [dep_mk]
            exact fun c hc => hdn c (List.mem_of_mem_dropLast hc)
          · rintro _ _ rfl
            rw [zero_add]
            refine wp_pure (wp_pure ?_)
            split at e
            · next hk =>
              cases e
              have : n.kids = [] := by simpa using hk
              exact ⟨⟨_, rfl, by rw [this]; rfl⟩, rfl⟩
            · obtain ⟨⟨c, ks⟩, e3, e4⟩ := Option.map_eq_some_iff.1 e
              cases e4
              exact ⟨⟨_, rfl, by rw [(kPop_some e3).2]; simp⟩, rfl⟩
        · next hc =>
          obtain ⟨rfl, rfl⟩ := h3
          rw [if_neg hc] at e ⊢
          cases e
          refine wp_forget 0 rfl ?_
          rw [add_zero]
          exact wp_pure (wp_pure ⟨⟨_, rfl, rfl⟩, rfl⟩)

theorem hremove_spec (hd : ∀ nd, m.root = some nd → (vt nd).Dep m.len)
    {p : K → Ordering} {m' old} (e : m.remove lin p = some (m', old)) :
    wp (FHMap.remove lin ⟨m.len, r⟩ p) (own r (vtO m.root))
      (fun x L => FR x.1 m' L ∧ x.2 = old) := hrm_spec hd hd e

end

section
variable [Ord K] [TransOrd K] {lin : Bool} {m : FMap K V} {r : Option Nat}

theorem hextend_spec (es : List (K × V)) : ∀ {m : FMap K V} {r m'}, m.WF →
    m.extend lin es = some m' →
    wp (FHMap.extend lin ⟨m.len, r⟩ es) (own r (vtO m.root)) (fun x L => FR x m' L) := by
  induction es with
  | nil => intro m r m' h e; cases e; exact wp_pure ⟨r, rfl, rfl⟩
  | cons e es ih =>
    intro m r m' h he
    obtain ⟨m1, e1, h1, -⟩ := FMap.insert_spec (lin := lin) h e.1 e.2
    simp only [FMap.extend, e1] at he
    refine wp_bind (wp_conseq (hinsert_spec h e1) ?_)
    rintro x L ⟨⟨r', h2, rfl⟩, -⟩
    rw [h2]
    exact ih h1 he

theorem written_root (g : Nat → K → V → V) (m : FMap K V)
    (ys : List (Option (K × (Nat × V)) × Nat)) :
    (written g m ys).root =
      m.root.map (fun nd => unl (updF g 0 (slots (gives ys))) nd.label) := by
  simp only [written, BTree.Node.label, unl_label, slots_gives]

theorem wf_written (h : m.WF) (g : Nat → K → V → V) (ys) : (written g m ys).WF :=
  h.mapIdx _ (fun _ _ => rfl)

theorem post1 {h : HMap} {m : FMap K V} {L} {o : FRes K V} (hR : FR h m L) :
    o = o ∧ ∃ L1 L2, L = L1 + L2 ∧ HoldsO FR (some h) (some m) L1 ∧
      HoldsL (FR (K := K) (V := V)) [] [] L2 :=
  ⟨rfl, L, 0, (add_zero _).symm, .some hR, .nil⟩

variable [Ord Q] [TransOrd Q] {b : K → Q}

/-- No operation panics, and all keep `WF`. -/
theorem fixedV_total (hb : ∀ a c, compare (b a) (b c) = compare a c) :
    Total (fixedV K V lin b) FMap.WF where
  make c := by
    cases c with
    | new => exact ⟨_, rfl, by simp [FMap.wf_new]⟩
    | fromIter es =>
      obtain ⟨m, e, h, -⟩ := FMap.extend_spec (lin := lin) (FMap.wf_new (K := K) (V := V)) es
      exact ⟨([m], .unit), by simp [fixedV, FMap.fromIter, e], by simp [h]⟩
  one {m} c h := by
    have hp : ∀ q : Q, Verif.IsProbe (probe b q) := Verif.isProbe_borrow b hb
    cases c with
    | clone => exact ⟨_, rfl, by simp [h], by simp [h]⟩
    | drop => exact ⟨_, rfl, by simp, by simp⟩
    | clear => exact ⟨_, rfl, by simp [FMap.clear]; exact FMap.wf_new, by simp⟩
    | insert k v =>
      obtain ⟨m', e, h', -⟩ := FMap.insert_spec (lin := lin) h k v
      exact ⟨_, by simp only [fixedV, e]; rfl, by simp [h'], by simp⟩
    | remove q =>
      obtain ⟨m', e, h', -⟩ := FMap.remove_spec (lin := lin) h (hp q)
      exact ⟨_, by simp only [fixedV, e]; rfl, by simp [h'], by simp⟩
    | get q =>
      exact ⟨_, by simp only [fixedV, FMap.get_spec (lin := lin) h (hp q)]; rfl, by simp [h], by simp⟩
    | getMut q g =>
      obtain ⟨m', e, h', -⟩ := FMap.getMut_spec (lin := lin) h (hp q) g
      exact ⟨_, by simp only [fixedV, e]; rfl, by simp [h'], by simp⟩
    | len => exact ⟨_, rfl, by simp [h], by simp⟩
    | isEmpty => exact ⟨_, rfl, by simp [h], by simp⟩
    | iter ds =>
      obtain ⟨ys, e, -⟩ := FMap.iterRun_spec h ds
      exact ⟨_, by simp only [fixedV, e]; rfl, by simp [h], by simp⟩
    | intoIter ds =>
      obtain ⟨ys, d, e, -⟩ := FMap.intoRun_spec .unique h ds
      exact ⟨_, by simp only [fixedV, e]; rfl, by simp, by simp⟩
    | iterMut g ds =>
      obtain ⟨ys, e, -⟩ := FMap.iterRun_spec h.label ds
      exact ⟨_, by simp only [fixedV, e]; rfl, by simp [wf_written h], by simp⟩
    | extend es =>
      obtain ⟨m', e, h', -⟩ := FMap.extend_spec (lin := lin) h es
      exact ⟨_, by simp only [fixedV, e]; rfl, by simp [h'], by simp⟩
  two c := nomatch c
  look c := nomatch c

theorem slots_nodup (h : m.WF) {ds ys} (e : m.label.iterRun ds = some ys) :
    (slots (gives ys)).Nodup := by
  obtain ⟨zs, e1, hl, hb⟩ := FMap.iterRun_spec h.label ds
  rw [e] at e1
  cases e1
  rw [FMap.label_toList] at hb
  obtain ⟨rest, hperm⟩ := hb.yields
  have h3 := (hperm.map (fun x => x.2.1)).nodup_iff.2 (by
    rw [List.map_map]; exact BTree.BTreeMap.nodup_slots m.toList)
  rw [List.map_append] at h3
  have h4 := (List.nodup_append.1 h3).1
  rw [List.map_filterMap] at h4
  rw [slots_gives]
  exact h4

/-- The operations on memory do what the operations on values do. -/
theorem fixedM_sound (hb : ∀ a c, compare (b a) (b c) = compare a c) :
    Sound (fixedM K V lin b) (fixedV K V lin b) FMap.WF FR where
  make {c y} e := by
    cases c with
    | new => cases e; exact wp_pure ⟨rfl, HoldsR.single ⟨none, rfl, rfl⟩⟩
    | fromIter es =>
      obtain ⟨m, e', rfl⟩ := Option.map_eq_some_iff.1 e
      have := hextend_spec es (r := none) FMap.wf_new e'
      refine wp_bind (wp_conseq this ?_)
      rintro x L h
      exact wp_pure ⟨rfl, HoldsR.single h⟩
  one {h m L c y} hI hR e := by
    obtain ⟨r, rfl, rfl⟩ := hR
    have hd : ∀ nd, m.root = some nd → (vt nd).Dep m.len := fun nd hr => dep_len hI hr
    have hn : ∀ nd, m.root = some nd → nodeCost nd ≤ 2 * m.len + 1 := fun nd hr => cost_len hI hr
    cases c with
    | clone =>
      cases e
      refine wp_bind (wp_bind (wp_conseq wp_cloneRef ?_))
      rintro x L ⟨rfl, rfl⟩
      exact wp_pure (wp_pure ⟨rfl, _, _, rfl, .some ⟨_, rfl, rfl⟩, HoldsR.single ⟨_, rfl, rfl⟩⟩)
    | drop =>
      cases e
      refine wp_bind (wp_conseq (wp_drop (dep_lenO hI)) ?_)
      rintro x L rfl
      exact wp_pure ⟨rfl, 0, 0, rfl, .none, .nil⟩
    | clear =>
      cases e
      refine wp_bind (wp_bind (wp_conseq (wp_drop (dep_lenO hI)) ?_))
      rintro x L rfl
      exact wp_pure (wp_pure (post1 ⟨none, rfl, rfl⟩))
    | insert k v =>
      obtain ⟨z, e1, rfl⟩ := Option.map_eq_some_iff.1 e
      refine wp_bind (wp_conseq (hinsert_spec hI e1) ?_)
      rintro x L ⟨h, h2⟩
      exact wp_pure (by rw [h2]; exact post1 h)
    | remove q =>
      obtain ⟨z, e1, rfl⟩ := Option.map_eq_some_iff.1 e
      refine wp_bind (wp_conseq (hremove_spec hd e1) ?_)
      rintro x L ⟨h, h2⟩
      exact wp_pure (by rw [h2]; exact post1 h)
    | get q =>
      obtain ⟨z, e1, rfl⟩ := Option.map_eq_some_iff.1 e
      refine wp_bind (wp_conseq (get_spec hd e1) ?_)
      rintro x L ⟨rfl, rfl⟩
      exact wp_pure (post1 ⟨r, rfl, rfl⟩)
    | getMut q g =>
      obtain ⟨z, e1, rfl⟩ := Option.map_eq_some_iff.1 e
      refine wp_bind (wp_conseq (hgetMut_spec hd e1) ?_)
      rintro x L ⟨h, h2⟩
      exact wp_pure (by rw [h2]; exact post1 h)
    | len => cases e; exact wp_pure (post1 ⟨r, rfl, rfl⟩)
    | isEmpty => cases e; exact wp_pure (post1 ⟨r, rfl, rfl⟩)
    | iter ds =>
      obtain ⟨z, e1, rfl⟩ := Option.map_eq_some_iff.1 e
      refine wp_bind (wp_conseq (iterRun_spec hn e1) ?_)
      rintro x L ⟨rfl, rfl⟩
      exact wp_pure (post1 ⟨r, rfl, rfl⟩)
    | intoIter ds =>
      have e0 := FMap.intoRun_eq .unique hI ds
      obtain ⟨z, e1, rfl⟩ := Option.map_eq_some_iff.1 e
      rw [e1] at e0
      refine wp_bind (wp_conseq (intoRun_spec hd hn e0.symm) ?_)
      rintro x L ⟨rfl, rfl⟩
      exact wp_pure ⟨rfl, 0, 0, rfl, .none, .nil⟩
    | iterMut g ds =>
      obtain ⟨z, e1, rfl⟩ := Option.map_eq_some_iff.1 e
      have hn' : ∀ nd, m.root = some nd → nodeCost nd.label ≤ 2 * m.len + 1 :=
        fun nd hr => cost_len hI.label (nd := nd.label) (by simp [FMap.label, hr])
      refine wp_bind (wp_bind (wp_conseq (iterMutRun_spec hd hn' e1 (slots_nodup hI e1)) ?_))
      rintro ⟨x, y⟩ L ⟨h1, rfl⟩
      dsimp only at h1
      subst h1
      exact wp_pure (wp_pure (post1 ⟨x, rfl, by rw [written_root]⟩))
    | extend es =>
      obtain ⟨z, e1, rfl⟩ := Option.map_eq_some_iff.1 e
      refine wp_bind (wp_conseq (hextend_spec es hI e1) ?_)
      rintro x L h
      exact wp_pure (post1 h)
  two {_ _ _ _ _ _ c} := nomatch c
  look {_ _ _ _ _ _ c} := nomatch c

/-! ## The same with deep copies -/

/-- The operations on memory with `clone` replaced by a copy of all nodes.  Not code of the crate:
it is what clones are compared with. -/
def fixedD (K V : Type) {Q : Type} [Ord K] [Ord Q] (lin : Bool) (b : K → Q) :
    Machine.Impl (Prog (ND K V)) HMap (FRes K V) (Make K V) (FOne K V Q) Empty Empty where
  make := (fixedM K V lin b).make
  one m
    | .clone => (deepClone m.len m.root).bind fun r => .pure (some m, [⟨m.len, r⟩], .unit)
    | c => (fixedM K V lin b).one m c
  two := (fixedM K V lin b).two
  look := (fixedM K V lin b).look

theorem fixedD_sound (hb : ∀ a c, compare (b a) (b c) = compare a c) :
    Sound (fixedD K V lin b) (fixedV K V lin b) FMap.WF FR where
  make := (fixedM_sound hb).make
  one {h m L c y} hI hR e := by
    cases c
    case clone =>
      obtain ⟨r, rfl, rfl⟩ := hR
      cases e
      refine wp_bind (wp_conseq (wp_deepClone (dep_lenO hI)) ?_)
      rintro x L rfl
      exact wp_pure ⟨rfl, _, _, rfl, .some ⟨r, rfl, rfl⟩, HoldsR.single ⟨x, rfl, rfl⟩⟩
    all_goals exact (fixedM_sound hb).one hI hR e
  two {_ _ _ _ _ _ c} := nomatch c
  look {_ _ _ _ _ _ c} := nomatch c

end
end Verif.FixedH
