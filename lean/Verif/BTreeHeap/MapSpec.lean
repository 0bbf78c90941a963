import Verif.BTreeHeap.Map
import Verif.BTree.Depth
import Verif.BTree.Reach
import Verif.BTreeHeap.Access
import Verif.BTreeHeap.Remove
import Verif.AvlHeap.MapSpec
import Verif.Heap.Deep
import Verif.Heap.Tac
/-!
# `BTreeMap` on reference-counted memory does what it does on values
-/
set_option linter.unusedSectionVars false
namespace Verif.BTreeH
open Heap Heap.Machine Std
open BTree (Node InnerIter BTreeMap QBnd Sharing nodeOps NIter)
open BTree.BTreeMap (WF)
open Verif.Avl (slotsOf seenOf)
open Verif.AvlH (updF dequeRun_all)

variable {K V S Q : Type}

/-- The map in memory is the value. -/
def R (h : HMap) (m : BTreeMap K V) (L : Multiset (Handle (ND K V))) : Prop :=
  ∃ r, h = ⟨m.len, r⟩ ∧ L = own r (vtO m.root)

/-! ## Depths -/

theorem dep_of_ok {N : Nat} : ∀ {h lo : Nat} {n : Node K V}, Node.Ok N lo h n → (vt n).Dep (h + 1) := by
  intro h
  induction h with
  | zero =>
    rintro lo ⟨es, ks⟩ hn
    obtain ⟨rfl, -⟩ := hn
    rw [dep_mk]
    simp
  | succ h ih =>
    rintro lo ⟨es, ks⟩ hn
    obtain ⟨-, -, -, hk⟩ := hn
    rw [dep_mk]
    exact fun c hc => ih (hk c hc)

section
variable [Ord K] {N : Nat} {m : BTreeMap K V}

/-- No tree is deeper than it has entries. -/
theorem dep_len (hN : 1 ≤ N) (h : WF N m) {nd : Node K V} (hr : m.root = some nd) :
    (vt nd).Dep m.len := by
  obtain ⟨⟨ht, h1⟩, h2⟩ := h.root hr
  have h3 := BTree.ok_size_root h1
  have h4 : 2 ^ ht ≤ (N + 1) ^ ht := Nat.pow_le_pow_left (by omega) _
  have h5 : ht < 2 ^ ht := Nat.lt_two_pow_self
  rw [← h2, ← h.len_eq] at h3
  exact (dep_of_ok h1).mono (by omega)

theorem dep_lenO (hN : 1 ≤ N) (h : WF N m) : (vtO m.root).Dep m.len := by
  cases hr : m.root with
  | none => exact Heap.VT.Dep.nil
  | some nd => exact dep_len hN h hr

end

/-! ## Memory -/

section
variable {m : BTreeMap K V} {r : Option Nat}

theorem hdrop_spec (hd : (vtO m.root).Dep m.len) :
    wp (HMap.drop ⟨m.len, r⟩) (own r (vtO m.root)) (fun _ L => L = 0) := wp_drop hd

theorem hclone_spec : wp (HMap.clone ⟨m.len, r⟩) (own r (vtO m.root))
    (fun x L => ∃ L', L = own r (vtO m.root) + L' ∧ R x m L') := by
  refine wp_bind (wp_conseq wp_cloneRef ?_)
  rintro x L ⟨rfl, rfl⟩
  exact wp_pure ⟨_, rfl, _, rfl, rfl⟩

theorem hget_spec (hd : ∀ nd, m.root = some nd → (vt nd).Dep m.len) {p : K → Ordering} :
    wp (HMap.getKeyValue ⟨m.len, r⟩ p) (own r (vtO m.root))
      (fun x L => x = m.getKeyValue p ∧ L = own r (vtO m.root)) := by
  refine wp_root (r := r) (root := m.root) 0 (add_zero _).symm ?_ ?_
  · intro hr hm
    subst hr
    simp only [HMap.getKeyValue, BTreeMap.getKeyValue, hm]
    exact wp_pure ⟨rfl, rfl⟩
  · intro a nd hr hm
    subst hr
    rw [add_zero]
    simp only [HMap.getKeyValue, BTreeMap.getKeyValue, hm]
    exact getAt_spec (u := false) rfl (hd nd hm)

theorem hcontains_spec (hd : ∀ nd, m.root = some nd → (vt nd).Dep m.len) {p : K → Ordering} :
    wp (HMap.containsKey ⟨m.len, r⟩ p) (own r (vtO m.root))
      (fun x L => x = m.containsKey p ∧ L = own r (vtO m.root)) := by
  refine wp_root (r := r) (root := m.root) 0 (add_zero _).symm ?_ ?_
  · intro hr hm
    subst hr
    simp only [HMap.containsKey, BTreeMap.containsKey, hm]
    exact wp_pure ⟨rfl, rfl⟩
  · intro a nd hr hm
    subst hr
    rw [add_zero]
    simp only [HMap.containsKey, BTreeMap.containsKey, hm]
    exact containsAt_spec (u := false) rfl (hd nd hm)

theorem hfirst_spec (hd : ∀ nd, m.root = some nd → (vt nd).Dep m.len) {e : Option (K × V)}
    (he : m.firstKeyValue = some e) :
    wp (HMap.first ⟨m.len, r⟩) (own r (vtO m.root))
      (fun x L => x = e ∧ L = own r (vtO m.root)) := by
  refine wp_root (r := r) (root := m.root) 0 (add_zero _).symm ?_ ?_
  · intro hr hm
    subst hr
    simp only [HMap.first, BTreeMap.firstKeyValue, hm] at he ⊢
    cases he
    exact wp_pure ⟨rfl, rfl⟩
  · intro a nd hr hm
    subst hr
    rw [add_zero]
    simp only [HMap.first, BTreeMap.firstKeyValue, hm, Option.map_eq_some_iff] at he ⊢
    obtain ⟨e, he, rfl⟩ := he
    refine wp_bind (wp_conseq (firstAt_spec (u := false) rfl (hd nd hm) he) ?_)
    rintro x L ⟨rfl, rfl⟩
    exact wp_pure ⟨rfl, rfl⟩

theorem hlast_spec (hd : ∀ nd, m.root = some nd → (vt nd).Dep m.len) :
    wp (HMap.last ⟨m.len, r⟩) (own r (vtO m.root))
      (fun x L => x = m.lastKeyValue ∧ L = own r (vtO m.root)) := by
  refine wp_root (r := r) (root := m.root) 0 (add_zero _).symm ?_ ?_
  · intro hr hm
    subst hr
    simp only [HMap.last, BTreeMap.lastKeyValue, hm]
    exact wp_pure ⟨rfl, rfl⟩
  · intro a nd hr hm
    subst hr
    rw [add_zero]
    simp only [HMap.last, BTreeMap.lastKeyValue, hm]
    exact lastAt_spec (u := false) rfl (hd nd hm)

theorem hgetMut_spec (hd : ∀ nd, m.root = some nd → (vt nd).Dep m.len) {p : K → Ordering}
    {g : V → V} :
    wp (HMap.getMut ⟨m.len, r⟩ p g) (own r (vtO m.root))
      (fun x L => R x.1 (m.getMut p g).1 L ∧ x.2 = (m.getMut p g).2) := by
  refine wp_root (r := r) (root := m.root) 0 (add_zero _).symm ?_ ?_
  · intro hr hm
    subst hr
    simp only [HMap.getMut, BTreeMap.getMut, hm]
    exact wp_pure ⟨⟨none, rfl, by simp [hm, vtO]⟩, rfl⟩
  · intro a nd hr hm
    subst hr
    simp only [HMap.getMut, BTreeMap.getMut, hm]
    have hd' := hd nd hm
    have hbody : ∀ x, Fits x nd → wp (BTreeH.getMut m.len p g m.len x)
        (owns x.kids (vts nd.kids) + 0) (Turns (nd.getMut p g).1
          (fun b L => b = (nd.getMut p g).2 ∧ L = 0)) := by
      intro x hx
      rw [add_zero]
      exact getMut_spec hd' hd' hx
    refine wp_bind (wp_conseq (mutArc_spec hd' hbody) ?_)
    rintro x L ⟨L2, rfl, h2, rfl⟩
    refine wp_forget 0 rfl ?_
    rw [add_zero]
    exact wp_pure ⟨⟨_, rfl, rfl⟩, h2⟩

theorem hinsert_spec [Ord K] {N : Nat} (hd : ∀ nd, m.root = some nd → (vt nd).Dep m.len) {k : K}
    {v : V} {m' old} (e : m.insert N k v = some (m', old)) :
    wp (HMap.insert N ⟨m.len, r⟩ k v) (own r (vtO m.root))
      (fun x L => R x.1 m' L ∧ x.2 = old) := by
  refine wp_root (r := r) (root := m.root) 0 (add_zero _).symm ?_ ?_
  · intro hr hm
    subst hr
    simp only [HMap.insert, BTreeMap.insert, hm] at e ⊢
    cases e
    refine wp_alloc (ts := []) 0 rfl (by simp) ?_
    intro a
    refine wp_forget 0 rfl ?_
    rw [add_zero]
    exact wp_pure ⟨⟨_, rfl, by simp [vtO, vt, vts]⟩, rfl⟩
  · intro a nd hr hm
    subst hr
    simp only [HMap.insert, BTreeMap.insert, hm] at e ⊢
    have hd' := hd nd hm
    cases er : nd.ins N k v with
    | none => rw [er] at e; cases e
    | some res =>
      rw [er] at e
      have hbody : ∀ x, Fits x nd → wp (ins N m.len k v m.len x)
          (owns x.kids (vts nd.kids) + 0) (Turns (resNode res) (InsR res)) := by
        intro x hx
        rw [add_zero]
        exact ins_spec hd' hd' hx er
      refine wp_bind (wp_conseq (mutArc_spec hd' hbody) ?_)
      rintro ⟨x, y⟩ L ⟨L2, rfl, h2⟩
      cases res with
      | replaced o n' =>
        cases e
        obtain ⟨rfl, rfl⟩ := h2
        refine wp_forget 0 rfl ?_
        rw [add_zero]
        exact wp_pure ⟨⟨_, rfl, rfl⟩, rfl⟩
      | absorbed n' =>
        cases e
        obtain ⟨rfl, rfl⟩ := h2
        refine wp_forget 0 rfl ?_
        rw [add_zero]
        exact wp_pure ⟨⟨_, rfl, rfl⟩, rfl⟩
      | split lhs kv n' =>
        cases e
        obtain ⟨b, rfl, rfl⟩ := h2
        refine wp_forget _ rfl ?_
        refine wp_alloc (ts := [vt lhs, vt n']) 0 rfl (by simp [resNode, add_comm]) ?_
        intro c
        refine wp_forget 0 rfl ?_
        rw [add_zero]
        exact wp_pure ⟨⟨_, rfl, by simp [vtO, vt, vts]⟩, rfl⟩

/-- The contents of the root after `shrink`. -/
def shrunk (b : Bool) (n : Node K V) : Node K V :=
  if b && n.elems.isEmpty then .mk n.elems n.kids.dropLast else n

/-- What `shrink` takes out. -/
def ShrR (b : Bool) (n : Node K V) (z : Option (Option Nat)) (L : Multiset (Handle (ND K V))) :
    Prop :=
  if b && n.elems.isEmpty then ∃ k, z = some k ∧ L = own k (vtO n.kids.getLast?)
  else z = none ∧ L = 0

theorem shrink_spec {b : Bool} {n : Node K V} {x : HN K V} {o} (hx : Fits x n)
    (h : BTreeMap.shrink b n = some o) :
    wp (HMap.shrink b x) (owns x.kids (vts n.kids)) (Turns (shrunk b n) (ShrR b n)) := by
  obtain ⟨es, ks⟩ := x
  obtain ⟨en, kn⟩ := n
  obtain ⟨h1, h2⟩ := hx
  simp only [BTree.Node.elems, BTree.Node.kids] at h1 h2
  subst h1
  by_cases hc : (b && List.isEmpty es) = true
  · have e0 : BTreeMap.shrink b (.mk es kn) =
      if 1 < kn.length then none else some kn.getLast? := if_pos hc
    have e1 : HMap.shrink b ⟨es, ks⟩ = if 1 < ks.length then .panic else
      .pure (⟨es, ks.dropLast⟩, some ks.getLast?.join) := if_pos hc
    have e2 : shrunk b (.mk es kn) = .mk es kn.dropLast := if_pos hc
    have e3 : ∀ z L, ShrR b (.mk es kn) z L = ∃ k, z = some k ∧ L = own k (vtO kn.getLast?) :=
      fun z L => if_pos hc
    rw [e0] at h
    split at h
    · cases h
    · next hl =>
      rw [e1, e2, if_neg (by rw [← h2]; exact hl)]
      refine wp_pure ⟨own ks.getLast?.join (vtO kn.getLast?), ⟨rfl, by simp [BTree.Node.kids, h2]⟩,
        ?_, ?_⟩
      · match kn, ks, h2, hl with
        | [], [], _, _ => simp [vts, vtO, BTree.Node.kids]
        | [c], [k], _, _ => simp [vts, vtO, BTree.Node.kids]
        | _ :: _ :: _, _, _, hl => simp at hl
      · rw [e3]
        exact ⟨_, rfl, rfl⟩
  · have e1 : HMap.shrink b ⟨es, ks⟩ = .pure (⟨es, ks⟩, none) := if_neg hc
    have e2 : shrunk b (.mk es kn) = .mk es kn := if_neg hc
    have e3 : ∀ z L, ShrR b (.mk es kn) z L = (z = none ∧ L = 0) := fun z L => if_neg hc
    rw [e1, e2]
    refine wp_pure ⟨0, ⟨rfl, h2⟩, by simp [BTree.Node.kids], ?_⟩
    rw [e3]
    exact ⟨rfl, rfl⟩

/-- What is left of the root and what is taken out of it. -/
def RmR (r : Option (BTree.Node.RemRes K V)) (z : Option ((K × V) × Option (Option Nat)))
    (L : Multiset (Handle (ND K V))) : Prop :=
  match r with
  | none => z = none ∧ L = 0
  | some (kv, b, n) => ∃ q, z = some (kv, q) ∧ ShrR b n q L

/-- The contents of the root after `rmRoot`. -/
def rmNode (nd : Node K V) : Option (BTree.Node.RemRes K V) → Node K V
  | none => nd
  | some (_, b, n) => shrunk b n

theorem hrmAndRebal_spec (hd : ∀ nd, m.root = some nd → (vt nd).Dep m.len)
    {remover : Node K V → Option (Option (BTree.Node.RemRes K V))}
    {rem : HN K V → Prog (ND K V) (HN K V × Option (HRem K V))}
    (hrem : ∀ nd r x, m.root = some nd → Fits x nd → remover nd = some r →
      wp (rem x) (owns x.kids (vts nd.kids))
        (Turns (remNode nd r) (fun y L => y = r.map (fun r => (r.1, r.2.1)) ∧ L = 0)))
    {m' old} (e : m.rmAndRebal remover = some (m', old)) :
    wp (HMap.rmAndRebal ⟨m.len, r⟩ rem) (own r (vtO m.root))
      (fun x L => R x.1 m' L ∧ x.2 = old) := by
  refine wp_root (r := r) (root := m.root) 0 (add_zero _).symm ?_ ?_
  · intro hr hm
    subst hr
    simp only [HMap.rmAndRebal, BTreeMap.rmAndRebal, hm] at e ⊢
    cases e
    exact wp_pure ⟨⟨none, rfl, by simp [hm, vtO]⟩, rfl⟩
  · intro a nd hr hm
    subst hr
    simp only [HMap.rmAndRebal, BTreeMap.rmAndRebal, hm] at e ⊢
    have hd' := hd nd hm
    cases er : remover nd with
    | none => rw [er] at e; cases e
    | some res =>
      rw [er] at e
      have hbody : ∀ x, Fits x nd → wp (HMap.rmRoot m.len rem x) (owns x.kids (vts nd.kids) + 0)
          (Turns (rmNode nd res) (RmR res)) := by
        intro x hx
        rw [add_zero]
        refine wp_bind (wp_conseq (hrem nd res x hm hx er) ?_)
        rintro ⟨x', y⟩ L ⟨L2, h1, rfl, rfl, rfl⟩
        cases res with
        | none => exact wp_pure ⟨0, h1, rfl, rfl, rfl⟩
        | some res =>
          obtain ⟨kv, b, n⟩ := res
          dsimp only [Option.map] at e ⊢
          split at e
          · cases e
          · next h0 =>
            rw [if_neg h0, add_zero]
            cases es : BTreeMap.shrink b n with
            | none => rw [es] at e; cases e
            | some o =>
              refine wp_bind (wp_conseq (shrink_spec h1 es) ?_)
              rintro ⟨x2, z⟩ L ⟨L3, h2, rfl, h3⟩
              exact wp_pure ⟨L3, h2, rfl, z, rfl, h3⟩
      refine wp_bind (wp_conseq (mutArc_spec hd' hbody) ?_)
      rintro ⟨x, z⟩ L ⟨L2, rfl, h2⟩
      cases res with
      | none =>
        obtain ⟨rfl, rfl⟩ := h2
        cases e
        refine wp_forget 0 rfl ?_
        rw [add_zero]
        exact wp_pure ⟨⟨_, rfl, by simp [hm, vtO, rmNode]⟩, rfl⟩
      | some res =>
        obtain ⟨kv, b, n⟩ := res
        obtain ⟨q, rfl, h3⟩ := h2
        dsimp only [rmNode] at e ⊢
        split at e
        · cases e
        · next h0 =>
          unfold ShrR at h3
          unfold BTreeMap.shrink at e
          unfold shrunk
          split at h3
          · next hc =>
            obtain ⟨k, rfl, rfl⟩ := h3
            rw [if_pos hc] at e ⊢
            split at e
            · cases e
            · next o ho =>
              split at ho
              · cases ho
              · next hl =>
                cases ho
                cases e
                refine wp_forget _ rfl ?_
                refine wp_call _ (wp_drop (D := m.len) ?_) rfl ?_
                · have e1 : n.kids.dropLast = [] := by
                    match h : n.kids with
                    | [] => rfl
                    | [c] => rfl
                    | _ :: _ :: _ => rw [h] at hl; simp at hl
                  rw [e1]
                  obtain ⟨l, hl⟩ := Nat.exists_eq_succ_of_ne_zero h0
                  rw [hl, Nat.succ_eq_add_one, dep_mk]
                  simp
                · rintro _ _ rfl
                  rw [zero_add]
                  exact wp_pure ⟨⟨_, rfl, rfl⟩, rfl⟩
          · next hc =>
            obtain ⟨rfl, rfl⟩ := h3
            rw [if_neg hc] at e ⊢
            cases e
            refine wp_forget 0 rfl ?_
            rw [add_zero]
            exact wp_pure ⟨⟨_, rfl, rfl⟩, rfl⟩


theorem hpopFirst_spec {N : Nat} (hd : ∀ nd, m.root = some nd → (vt nd).Dep m.len) {m' kv}
    (e : m.popFirst N = some (m', kv)) :
    wp (HMap.popFirst N ⟨m.len, r⟩) (own r (vtO m.root)) (fun x L => R x.1 m' L ∧ x.2 = kv) := by
  refine hrmAndRebal_spec hd ?_ e
  intro nd r x hm hx he
  obtain ⟨z, e1, rfl⟩ := Option.map_eq_some_iff.1 he
  refine wp_bind (wp_conseq (popFirst_spec (hd nd hm) ((hd nd hm).mono (by simp)) hx e1) ?_)
  rintro y L ⟨L2, h1, rfl, h3, rfl⟩
  exact wp_pure ⟨0, h1, rfl, by rw [h3]; rfl, rfl⟩

theorem hpopLast_spec {N : Nat} (hd : ∀ nd, m.root = some nd → (vt nd).Dep m.len) {m' kv}
    (e : m.popLast N = some (m', kv)) :
    wp (HMap.popLast N ⟨m.len, r⟩) (own r (vtO m.root)) (fun x L => R x.1 m' L ∧ x.2 = kv) := by
  refine hrmAndRebal_spec hd ?_ e
  intro nd r x hm hx he
  obtain ⟨z, e1, rfl⟩ := Option.map_eq_some_iff.1 he
  refine wp_bind (wp_conseq (popLast_spec (hd nd hm) ((hd nd hm).mono (by simp)) hx e1) ?_)
  rintro y L ⟨L2, h1, rfl, h3, rfl⟩
  exact wp_pure ⟨0, h1, rfl, by rw [h3]; rfl, rfl⟩

theorem hremove_spec {N : Nat} (hd : ∀ nd, m.root = some nd → (vt nd).Dep m.len)
    {p : K → Ordering} {m' old} (e : m.remove N p = some (m', old)) :
    wp (HMap.remove N ⟨m.len, r⟩ p) (own r (vtO m.root)) (fun x L => R x.1 m' L ∧ x.2 = old) := by
  unfold BTreeMap.remove at e
  refine wp_bind (wp_conseq (hcontains_spec hd) ?_)
  rintro c L ⟨rfl, rfl⟩
  split
  · next hc =>
    rw [if_pos hc] at e
    obtain ⟨z, e1, e2⟩ := Option.map_eq_some_iff.1 e
    refine wp_bind (wp_conseq (hrmAndRebal_spec hd ?_ (m' := z.1) (old := z.2) e1) ?_)
    · intro nd r x hm hx he
      exact remove_spec (hd nd hm) ((hd nd hm).mono (by simp)) hx he
    · rintro x L ⟨h1, h2⟩
      cases e2
      exact wp_pure ⟨h1, by rw [h2]⟩
  · next hc =>
    rw [if_neg hc] at e
    cases e
    exact wp_pure ⟨⟨r, rfl, rfl⟩, rfl⟩

end

/-! ## Loops over owning iterators -/

theorem forInto_spec {D : Nat} {f : S → K × V → Prog (ND K V) (S × Bool)}
    {J : List (K × V) → S → Multiset (Handle (ND K V)) → Prop}
    {Q : S → Multiset (Handle (ND K V)) → Prop}
    (hbody : ∀ e rest s L, J (e :: rest) s L → wp (f s e) L
      (fun y L' => if y.2 then J rest y.1 L' else Q y.1 L'))
    (hend : ∀ s L, J [] s L → Q s L) :
    ∀ {k : Nat} {it : InnerIter (OIter K V)} {jt : InnerIter (NIter (K × V) (Node K V))} {s : S}
      {es : List (K × V)} {L M : Multiset (Handle (ND K V))}, it.len = jt.len →
      OW D it.work jt.work L → nodeOps.drain k jt = some es → J es s M →
      wp (forInto D (D + 1) f k it s) (L + M) Q := by
  intro k
  induction k with
  | zero => intro it jt s es L M _ _ hd; cases hd
  | succ k ih =>
    intro it jt s es L M hl hw hd hJ
    simp only [BTree.NodeIterOps.drain] at hd
    cases hn : nodeOps.next jt with
    | none => rw [hn] at hd; cases hd
    | some z =>
      obtain ⟨jt', z⟩ := z
      rw [hn] at hd
      refine wp_call M (next_ok (h := []) ownOk.front hl hw hn) rfl ?_
      rintro ⟨_, it', y⟩ L' ⟨h1, h2, h3⟩
      cases z with
      | none =>
        cases hd
        cases h3
        refine wp_call M (dropWork_spec h2) rfl ?_
        rintro _ _ rfl
        rw [zero_add]
        exact wp_pure (hend _ _ hJ)
      | some e =>
        obtain ⟨_, rfl, rfl⟩ := h3
        obtain ⟨es, hd', rfl⟩ := Option.map_eq_some_iff.1 hd
        dsimp only
        refine wp_call L' (hbody _ _ _ _ hJ) (add_comm _ _) ?_
        rintro ⟨s', b⟩ M' hJ'
        cases b with
        | true =>
          dsimp only
          rw [if_pos rfl, add_comm M' L']
          exact ih h1 h2 hd' hJ'
        | false =>
          dsimp only
          rw [if_neg (by simp), add_comm M' L']
          refine wp_call M' (dropWork_spec h2) rfl ?_
          rintro _ _ rfl
          rw [zero_add]
          exact wp_pure hJ'

section
variable [Ord K] [TransOrd K] {N : Nat} {m : BTreeMap K V} {r : Option Nat}

theorem forEachInto_spec (hN : 1 ≤ N) (h : WF N m) {f : S → K × V → Prog (ND K V) (S × Bool)}
    {J : List (K × V) → S → Multiset (Handle (ND K V)) → Prop}
    {Q : S → Multiset (Handle (ND K V)) → Prop}
    (hbody : ∀ e rest s L, J (e :: rest) s L → wp (f s e) L
      (fun y L' => if y.2 then J rest y.1 L' else Q y.1 L'))
    (hend : ∀ s L, J [] s L → Q s L) {s : S} {M : Multiset (Handle (ND K V))}
    (hJ : J m.abs s M) :
    wp (HMap.forEachInto ⟨m.len, r⟩ f s) (own r (vtO m.root) + M) Q := by
  refine wp_call M (intoNew_spec (len := m.len) (fun nd hr => dep_len hN h hr)) rfl ?_
  rintro it L ⟨h1, h2⟩
  exact forInto_spec hbody hend h1 h2 (BTree.BTreeMap.iterList_spec hN h) hJ

theorem happend_spec (hN : 1 ≤ N) {a m' : BTreeMap K V} {ra : Option Nat} (ha : WF N a)
    (h : WF N m) (e : a.extend N m.abs = some m') :
    wp (HMap.append N ⟨a.len, ra⟩ ⟨m.len, r⟩) (own ra (vtO a.root) + own r (vtO m.root))
      (fun x L => R x m' L) := by
  rw [add_comm]
  refine forEachInto_spec hN h (J := fun es x L => ∃ v, WF N v ∧ R x v L ∧
    v.extend N es = some m') ?_ ?_ ⟨a, ha, ⟨_, rfl, rfl⟩, e⟩
  · rintro ⟨k, v⟩ rest s L ⟨w, hw, ⟨r', rfl, rfl⟩, he⟩
    obtain ⟨w', e1, hw', -⟩ := BTree.BTreeMap.insert_spec hw k v
    simp only [BTreeMap.extend, e1] at he
    refine wp_bind (wp_conseq (hinsert_spec (fun nd hr => dep_len hN hw hr) e1) ?_)
    rintro x L ⟨h1, -⟩
    refine wp_pure ?_
    rw [if_pos rfl]
    exact ⟨w', hw', h1, he⟩
  · rintro s L ⟨w, hw, h1, he⟩
    cases he
    exact h1

theorem hintoVec_spec (hN : 1 ≤ N) (h : WF N m) :
    wp (HMap.intoVec ⟨m.len, r⟩) (own r (vtO m.root)) (fun x L => x = m.abs ∧ L = 0) := by
  rw [← add_zero (own _ _)]
  refine forEachInto_spec hN h (J := fun es x L => x ++ es = m.abs ∧ L = 0) ?_ ?_ ⟨rfl, rfl⟩
  · rintro e rest s L ⟨h1, rfl⟩
    refine wp_pure ?_
    rw [if_pos rfl]
    exact ⟨by simpa using h1, rfl⟩
  · rintro s L ⟨h1, rfl⟩
    exact ⟨by simpa using h1, rfl⟩

/-- How the loop of `retain` ends. -/
def RetainR (N : Nat) (X : Option (S × BTreeMap K V)) (x : HMap × Option S)
    (L : Multiset (Handle (ND K V))) : Prop :=
  match X with
  | none => x.2 = none ∧ ∃ v : BTreeMap K V, WF N v ∧ R x.1 v L
  | some y => x.2 = some y.1 ∧ R x.1 y.2 L

/-- How `retain` ends. -/
def RetainR' (X : BTreeMap.RetainEnd S (BTreeMap K V)) (x : HMap × Option S)
    (L : Multiset (Handle (ND K V))) : Prop :=
  match X with
  | .done s m => R x.1 m L ∧ x.2 = some s
  | .panicked m => R x.1 m L ∧ x.2 = none

/-- The end of `retain`, given the end of its loop. -/
def retainEnd : Option (S × BTreeMap K V) → BTreeMap.RetainEnd S (BTreeMap K V)
  | none => .panicked .new
  | some y => .done y.1 y.2

theorem retain_eq (hN : 1 ≤ N) (h : WF N m) (o : Sharing K V)
    (f : S → K → V → Option (S × V × Bool)) (s : S) :
    m.retain N o f s = retainEnd (BTreeMap.retainLoop N f m.abs s .new) := by
  rw [BTreeMap.retain, BTree.BTreeMap.intoList_spec hN h o]
  dsimp only
  cases BTreeMap.retainLoop N f m.abs s .new <;> rfl

theorem hretain_spec (hN : 1 ≤ N) (h : WF N m) (o : Sharing K V)
    {f : S → K → V → Option (S × V × Bool)} {s : S} :
    wp (HMap.retain N ⟨m.len, r⟩ f s) (own r (vtO m.root)) (RetainR' (m.retain N o f s)) := by
  rw [retain_eq hN h]
  generalize hXe : BTreeMap.retainLoop N f m.abs s .new = X
  have hloop : wp (HMap.forEachInto ⟨m.len, r⟩ (HMap.retainBody N f) (HMap.new, some s))
      (own r (vtO m.root)) (RetainR N X) := by
    have e0 : own r (vtO m.root) = own r (vtO m.root) + (0 : Multiset (Handle (ND K V))) :=
      (add_zero _).symm
    rw [e0]
    refine forEachInto_spec hN h (J := fun es x L => ∃ v s, x.2 = some s ∧ WF N v ∧ R x.1 v L ∧
      BTreeMap.retainLoop N f es s v = X) ?_ ?_
      ⟨BTreeMap.new, s, rfl, BTree.BTreeMap.wf_new, ⟨none, rfl, rfl⟩, hXe⟩
    · rintro ⟨k, v⟩ rest ⟨x, y⟩ L ⟨w, s, hy, hw, ⟨r', hx, rfl⟩, he⟩
      dsimp only at hy hx
      subst hy hx
      simp only [HMap.retainBody]
      simp only [BTreeMap.retainLoop] at he
      split at he
      · next hf =>
        rw [hf]
        subst he
        refine wp_pure ?_
        rw [if_neg (by simp)]
        exact ⟨rfl, w, hw, _, rfl, rfl⟩
      · next s' v' keep hf =>
        rw [hf]
        dsimp only
        cases keep with
        | true =>
          obtain ⟨w', e1, hw', -⟩ := BTree.BTreeMap.insert_spec hw k v'
          rw [if_pos rfl, e1] at he
          rw [if_pos rfl]
          refine wp_bind (wp_conseq (hinsert_spec (fun nd hr => dep_len hN hw hr) e1) ?_)
          rintro x L ⟨h1, -⟩
          refine wp_pure ?_
          rw [if_pos rfl]
          exact ⟨w', s', rfl, hw', h1, he⟩
        | false =>
          rw [if_neg (by simp)] at he ⊢
          refine wp_pure ?_
          rw [if_pos rfl]
          exact ⟨w, s', rfl, hw, ⟨_, rfl, rfl⟩, he⟩
    · rintro ⟨x, y⟩ L ⟨w, s, hy, hw, h1, he⟩
      cases he
      exact ⟨hy, h1⟩
  refine wp_bind (wp_conseq hloop ?_)
  · rintro ⟨x, y⟩ L hq
    cases X with
    | none =>
      obtain ⟨hy, v, hv, r', hx, rfl⟩ := hq
      dsimp only at hy hx ⊢
      subst hy hx
      refine wp_bind (wp_conseq (hdrop_spec (dep_lenO hN hv)) ?_)
      rintro _ _ rfl
      exact wp_pure ⟨⟨none, rfl, rfl⟩, rfl⟩
    | some z =>
      obtain ⟨hy, h1⟩ := hq
      dsimp only at hy h1 ⊢
      subst hy
      exact wp_pure ⟨h1, rfl⟩

theorem hsplitOff_spec (hN : 1 ≤ N) (h : WF N m) {p : K → Ordering} {a b : BTreeMap K V}
    (e : BTreeMap.splitLoop N p m.abs .new .new = some (a, b)) :
    wp (HMap.splitOff N ⟨m.len, r⟩ p) (own r (vtO m.root))
      (fun x L => ∃ L1 L2, L = L1 + L2 ∧ R x.1 a L1 ∧ R x.2 b L2) := by
  have e0 : own r (vtO m.root) = own r (vtO m.root) + (0 : Multiset (Handle (ND K V))) :=
    (add_zero _).symm
  rw [e0]
  refine forEachInto_spec hN h (J := fun es x L => ∃ v w L1 L2, L = L1 + L2 ∧ WF N v ∧ WF N w ∧
    R x.1 v L1 ∧ R x.2 w L2 ∧ BTreeMap.splitLoop N p es v w = some (a, b)) ?_ ?_
    ⟨.new, .new, 0, 0, rfl, BTree.BTreeMap.wf_new, BTree.BTreeMap.wf_new, ⟨none, rfl, rfl⟩,
      ⟨none, rfl, rfl⟩, e⟩
  · rintro ⟨k, v⟩ rest ⟨x, y⟩ L ⟨w1, w2, L1, L2, rfl, hw1, hw2, h1, h2, he⟩
    dsimp only at h1 h2 ⊢
    simp only [BTreeMap.splitLoop] at he
    split at he
    · next hp =>
      rw [if_pos hp]
      obtain ⟨w', e1, hw', -⟩ := BTree.BTreeMap.insert_spec hw1 k v
      rw [e1] at he
      obtain ⟨r1, rfl, rfl⟩ := h1
      refine wp_call L2 (hinsert_spec (fun nd hr => dep_len hN hw1 hr) e1) rfl ?_
      rintro x L ⟨h1, -⟩
      refine wp_pure ?_
      rw [if_pos rfl]
      exact ⟨w', w2, _, _, rfl, hw', hw2, h1, h2, he⟩
    · next hp =>
      rw [if_neg hp]
      obtain ⟨w', e1, hw', -⟩ := BTree.BTreeMap.insert_spec hw2 k v
      rw [e1] at he
      obtain ⟨r1, rfl, rfl⟩ := h2
      refine wp_call L1 (hinsert_spec (fun nd hr => dep_len hN hw2 hr) e1) (add_comm _ _) ?_
      rintro x L ⟨h2, -⟩
      refine wp_pure ?_
      rw [if_pos rfl]
      exact ⟨w1, w', _, _, add_comm _ _, hw1, hw', h1, h2, he⟩
  · rintro ⟨x, y⟩ L ⟨w1, w2, L1, L2, rfl, hw1, hw2, h1, h2, he⟩
    cases he
    exact ⟨L1, L2, rfl, h1, h2⟩

theorem hextend_spec (hN : 1 ≤ N) (es : List (K × V)) : ∀ {m : BTreeMap K V} {r m'}, WF N m →
    m.extend N es = some m' →
    wp (HMap.extend N ⟨m.len, r⟩ es) (own r (vtO m.root)) (fun x L => R x m' L) := by
  induction es with
  | nil => intro m r m' h e; cases e; exact wp_pure ⟨r, rfl, rfl⟩
  | cons e es ih =>
    intro m r m' h he
    obtain ⟨m1, e1, h1, -⟩ := BTree.BTreeMap.insert_spec h e.1 e.2
    simp only [BTreeMap.extend, e1] at he
    refine wp_bind (wp_conseq (hinsert_spec (fun nd hr => dep_len hN h hr) e1) ?_)
    rintro x L ⟨⟨r', h2, rfl⟩, -⟩
    rw [h2]
    exact ih h1 he

theorem hiter_spec (hN : 1 ≤ N) (h : WF N m) {ds : List Bool} {ys}
    (e : nodeOps.run ds m.iter = some ys) :
    wp (HMap.iter ⟨m.len, r⟩ ds) (own r (vtO m.root))
      (fun x L => x = ys ∧ L = own r (vtO m.root)) :=
  iterRun_spec (fun nd hr => dep_len hN h hr) e

theorem hiterList_spec (hN : 1 ≤ N) (h : WF N m) :
    wp (HMap.iterList ⟨m.len, r⟩) (own r (vtO m.root))
      (fun x L => x = m.abs ∧ L = own r (vtO m.root)) := by
  refine wp_bind (wp_conseq (hiter_spec hN h (BTree.BTreeMap.iter_run_spec hN h _)) ?_)
  rintro x L ⟨rfl, rfl⟩
  exact wp_pure ⟨dequeRun_all m.abs _ (by have := h.len_eq; dsimp only; omega), rfl⟩

theorem slots_gives (ys : List (Option (K × (Nat × V)) × Nat)) : slots (gives ys) = slotsOf ys := by
  simp only [slots, gives, slotsOf, List.map_filterMap]

theorem written_root (g : Nat → K → V → V) (m : BTreeMap K V)
    (ys : List (Option (K × (Nat × V)) × Nat)) :
    (written g m ys).root =
      m.root.map (fun nd => unl (updF g 0 (slots (gives ys))) nd.label) := by
  simp only [written, Node.label, unl_label, slots_gives]

theorem WF.written (h : WF N m) (g : Nat → K → V → V) (ys) : WF N (written g m ys) :=
  h.mapIdx _ (fun _ _ => rfl)

theorem horInsert_spec [Ord Q] {b : K → Q} (hN : 1 ≤ N) (h : WF N m) {k : K} {d : K → V}
    {g : V → V} {y} (e : (btreeV K V S N b).one m (.orInsert k d g) = some y) :
    wp (HMap.orInsert N ⟨m.len, r⟩ k d g) (own r (vtO m.root)) (fun x L =>
      y.2.1 = [] ∧ y.2.2 = (if x.2.2 then .bool x.2.1 else .panicked) ∧
      ∃ m', y.1 = some m' ∧ R x.1 m' L) := by
  unfold HMap.orInsert
  refine wp_bind (wp_conseq (hcontains_spec (fun nd hr => dep_len hN h hr)) ?_)
  rintro x L ⟨rfl, rfl⟩
  simp only [btreeV] at e
  split at e
  · next hc =>
    rw [if_pos hc]
    cases e
    refine wp_bind (wp_conseq (hgetMut_spec (fun nd hr => dep_len hN h hr)) ?_)
    rintro x L ⟨h1, h2⟩
    exact wp_pure ⟨rfl, by rw [h2], _, rfl, h1⟩
  · next hc =>
    rw [if_neg hc]
    obtain ⟨m', e1, h', -⟩ := BTree.BTreeMap.insert_spec h k (d k)
    rw [e1] at e
    cases e
    refine wp_bind (wp_conseq (hinsert_spec (fun nd hr => dep_len hN h hr) e1) ?_)
    rintro x L ⟨⟨r', h1, rfl⟩, h2⟩
    rw [h1]
    refine wp_bind (wp_conseq (hgetMut_spec (fun nd hr => dep_len hN h' hr)) ?_)
    rintro x L ⟨h1, h2⟩
    exact wp_pure ⟨rfl, by rw [h2], _, rfl, h1⟩

/-- The end of an operation that returns one map. -/
theorem post1 {h : HMap} {m : BTreeMap K V} {L} {o : Res K V S} (hR : R h m L) :
    o = o ∧ ∃ L1 L2, L = L1 + L2 ∧ HoldsO R (some h) (some m) L1 ∧
      HoldsL (R (K := K) (V := V)) [] [] L2 :=
  ⟨rfl, L, 0, (add_zero _).symm, .some hR, .nil⟩

theorem range_eq [Ord Q] (b : K → Q) {W : Type} (m : BTreeMap K W) {lb ub : QBnd Q}
    (hc : ¬ lb.bad ub = true) : m.range b lb ub =
      (m.root.elim (some []) (BTree.mkWork (lb.bnd b) (ub.bnd b))).map (fun w => ⟨w, m.len⟩) := by
  rw [BTreeMap.range, if_neg hc]
  cases m.root <;> rfl

/-- A `range` call and its run do not panic, unless the bounds are rejected. -/
theorem range_total [Ord Q] [TransOrd Q] {b : K → Q} (hb : ∀ a c, compare (b a) (b c) = compare a c)
    (hN : 1 ≤ N) (h : WF N m) (lb ub : QBnd Q) (ds : List Bool) {it}
    (e : m.range b lb ub = some it) : ∃ ys, nodeOps.run ds it = some ys := by
  obtain ⟨r1, r2⟩ := BTree.BTreeMap.range_spec hN h hb lb ub
  by_cases hc : lb.bad ub = true ∨ BTree.BTreeMap.BothExclude b lb ub m.abs
  · rw [r1 hc] at e; cases e
  · rw [not_or, Bool.not_eq_true] at hc
    obtain ⟨it', e1, h1, h2, h3⟩ := r2 hc.1 hc.2
    rw [e] at e1
    cases e1
    obtain ⟨_, -, h4, -⟩ := BTree.BTreeMap.range_run_spec hN h h1 h2 h3 ds
    exact ⟨_, h4⟩

end

section
variable [Ord K] [TransOrd K] [Ord Q] [TransOrd Q] {N : Nat} {b : K → Q}

/-- No slot is handed out twice by a range iterator. -/
theorem slots_nodup_range {m : BTreeMap K V} (hb : ∀ a c, compare (b a) (b c) = compare a c)
    (hN : 1 ≤ N) (h : WF N m) {lb ub : QBnd Q} {ds : List Bool} {it z}
    (e : m.label.range b lb ub = some it) (e' : nodeOps.run ds it = some z) :
    (slotsOf z).Nodup := by
  obtain ⟨r1, r2⟩ := BTree.BTreeMap.range_spec hN h.label hb lb ub
  by_cases hc : lb.bad ub = true ∨ BTree.BTreeMap.BothExclude b lb ub m.label.abs
  · rw [r1 hc] at e; cases e
  · rw [not_or, Bool.not_eq_true] at hc
    obtain ⟨it', e1, h1, h2, h3⟩ := r2 hc.1 hc.2
    rw [e] at e1
    cases e1
    obtain ⟨slack, -, h4, -⟩ := BTree.BTreeMap.range_run_spec hN h.label h1 h2 h3 ds
    rw [e'] at h4
    cases h4
    have hrange : Spec.range (lb.bnd b) (ub.bnd b) m.label.abs =
        (m.abs.zipIdx.filter (fun x => (lb.bnd b).okLo x.1.1 && (ub.bnd b).okHi x.1.1)).map
          (fun x => (x.1.1, (x.2, x.1.2))) := by
      rw [BTree.BTreeMap.label_abs, Spec.range, List.filter_map]; rfl
    rw [hrange]
    exact (BTree.mut_facts _ ds slack ((BTree.BTreeMap.nodup_slots m.abs).sublist
      (List.Sublist.map _ List.filter_sublist))).2.2

theorem retain_ok {m : BTreeMap K V} (hN : 1 ≤ N) (h : WF N m)
    (f : S → K → V → Option (S × V × Bool)) (s : S) :
    match m.retain N .unique f s with
    | .done _ m' => WF N m'
    | .panicked m' => WF N m' := by
  rw [retain_eq hN h]
  cases e : BTreeMap.retainLoop N f m.abs s .new with
  | none => exact BTree.BTreeMap.wf_new
  | some y => exact BTree.retainLoop_wf _ _ _ BTree.BTreeMap.wf_new e

/-- No operation panics unexpectedly, and all keep `WF`. -/
theorem btreeV_total (hN : 1 ≤ N) (hb : ∀ a c, compare (b a) (b c) = compare a c) :
    Total (btreeV K V S N b) (WF N) where
  make c := by
    cases c with
    | new => exact ⟨_, rfl, by simp [BTree.BTreeMap.wf_new]⟩
    | fromIter es =>
      obtain ⟨m, e, h, -⟩ := BTree.BTreeMap.extend_spec (N := N) (BTree.BTreeMap.wf_new (K := K) (V := V)) es
      exact ⟨([m], .unit), by simp [btreeV, BTreeMap.fromIter, e], by simp [h]⟩
  one {m} c h := by
    have hp : ∀ q : Q, Verif.IsProbe (probe b q) := Verif.isProbe_borrow b hb
    cases c with
    | clone => exact ⟨_, rfl, by simp [h], by simp [h]⟩
    | drop => exact ⟨_, rfl, by simp, by simp⟩
    | clear => exact ⟨_, rfl, by simp [BTreeMap.clear]; exact BTree.BTreeMap.wf_new, by simp⟩
    | insert k v =>
      obtain ⟨m', e, h', -⟩ := BTree.BTreeMap.insert_spec h k v
      exact ⟨_, by simp only [btreeV, e]; rfl, by simp [h'], by simp⟩
    | remove q =>
      obtain ⟨m', e, h', -⟩ := BTree.BTreeMap.remove_spec hN h (hp q)
      exact ⟨_, by simp only [btreeV, e]; rfl, by simp [h'], by simp⟩
    | popFirst =>
      obtain ⟨m', e, h', -⟩ := BTree.BTreeMap.popFirst_spec hN h
      exact ⟨_, by simp only [btreeV, e]; rfl, by simp [h'], by simp⟩
    | popLast =>
      obtain ⟨m', e, h', -⟩ := BTree.BTreeMap.popLast_spec hN h
      exact ⟨_, by simp only [btreeV, e]; rfl, by simp [h'], by simp⟩
    | getKeyValue q => exact ⟨_, rfl, by simp [h], by simp⟩
    | get q => exact ⟨_, rfl, by simp [h], by simp⟩
    | containsKey q => exact ⟨_, rfl, by simp [h], by simp⟩
    | getMut q g => exact ⟨_, rfl, by simp [(BTree.BTreeMap.getMut_spec h (hp q) g).1], by simp⟩
    | first =>
      exact ⟨_, by simp only [btreeV, BTree.BTreeMap.firstKeyValue_spec hN h]; rfl, by simp [h], by simp⟩
    | last => exact ⟨_, rfl, by simp [h], by simp⟩
    | len => exact ⟨_, rfl, by simp [h], by simp⟩
    | isEmpty => exact ⟨_, rfl, by simp [h], by simp⟩
    | iter ds =>
      exact ⟨_, by simp only [btreeV, BTree.BTreeMap.iter_run_spec hN h]; rfl, by simp [h], by simp⟩
    | intoIter ds =>
      exact ⟨_, by simp only [btreeV, BTree.BTreeMap.intoIter_run_spec hN h]; rfl, by simp, by simp⟩
    | iterMut g ds =>
      exact ⟨_, by simp only [btreeV, BTree.BTreeMap.iter_run_spec hN h.label]; rfl,
        by simp [WF.written h], by simp⟩
    | range lb ub ds =>
      simp only [btreeV]
      cases e : m.range b lb ub with
      | none => exact ⟨_, rfl, by simp [h], by simp⟩
      | some it =>
        obtain ⟨ys, e1⟩ := range_total hb hN h lb ub ds e
        exact ⟨_, by simp only [e1]; rfl, by simp [h], by simp⟩
    | rangeMut lb ub g ds =>
      simp only [btreeV]
      cases e : m.label.range b lb ub with
      | none => exact ⟨_, rfl, by simp [h], by simp⟩
      | some it =>
        obtain ⟨ys, e1⟩ := range_total hb hN h.label lb ub ds e
        exact ⟨_, by simp only [e1]; rfl, by simp [WF.written h], by simp⟩
    | retain f s =>
      have := retain_ok hN h f s
      refine ⟨_, rfl, ?_, ?_⟩
      · cases e : m.retain N .unique f s <;> rw [e] at this <;> simp [e, this]
      · cases e : m.retain N .unique f s <;> simp [e]
    | extend es =>
      obtain ⟨m', e, h', -⟩ := BTree.BTreeMap.extend_spec h es
      exact ⟨_, by simp only [btreeV, e]; rfl, by simp [h'], by simp⟩
    | splitOff q =>
      obtain ⟨m1, m2, e, h1, h2, -⟩ := BTree.BTreeMap.splitOff_spec hN h .unique (probe b q)
      exact ⟨_, by simp only [btreeV, e]; rfl, by simp [h1], by simp [h2]⟩
    | intoVec =>
      exact ⟨_, by simp only [btreeV, BTree.BTreeMap.intoList_spec hN h]; rfl, by simp, by simp⟩
    | serialize =>
      exact ⟨_, by simp only [btreeV, BTreeMap.serialize, BTree.BTreeMap.iterList_spec hN h]; rfl,
        by simp [h], by simp⟩
    | orInsert k d g =>
      simp only [btreeV]
      have hk : ∀ {m : BTreeMap K V}, WF N m → WF N (m.getMut (compare k) g).1 :=
        fun h => (BTree.BTreeMap.getMut_spec h (Verif.isProbe_compare k) g).1
      split
      · exact ⟨_, rfl, by simp [hk h], by simp⟩
      · obtain ⟨m', e, h', -⟩ := BTree.BTreeMap.insert_spec h k (d k)
        exact ⟨_, by simp only [e]; rfl, by simp [hk h'], by simp⟩
    | andModify k g =>
      exact ⟨_, rfl, by simp [(BTree.BTreeMap.getMut_spec h (Verif.isProbe_compare k) g).1], by simp⟩
  two {l r} c hl hr := by
    cases c with
    | append =>
      obtain ⟨m', e, h', -⟩ := BTree.BTreeMap.extend_spec hl r.abs
      exact ⟨_, by
        simp only [btreeV, BTreeMap.append, BTree.BTreeMap.intoList_spec hN hr, e]; rfl,
        by simp [h'], by simp [BTree.BTreeMap.wf_new], by simp⟩
  look {l r} c hl hr := by
    cases c with
    | eq eqE =>
      simp only [btreeV, BTreeMap.eqMap, BTree.BTreeMap.iterList_spec hN hl,
        BTree.BTreeMap.iterList_spec hN hr]
      split <;> exact ⟨_, rfl⟩
    | partialCmp cmpE =>
      simp only [btreeV, BTreeMap.partialCmpMap, BTree.BTreeMap.iterList_spec hN hl,
        BTree.BTreeMap.iterList_spec hN hr]
      exact ⟨_, rfl⟩
    | cmp cmpE =>
      simp only [btreeV, BTreeMap.cmpMap, BTree.BTreeMap.iterList_spec hN hl,
        BTree.BTreeMap.iterList_spec hN hr]
      exact ⟨_, rfl⟩

/-- The operations on memory do what the operations on values do. -/
theorem btreeM_sound (hN : 1 ≤ N) (hb : ∀ a c, compare (b a) (b c) = compare a c) :
    Sound (btreeM K V S N b) (btreeV K V S N b) (WF N) R where
  make {c y} e := by
    cases c with
    | new => cases e; exact wp_pure ⟨rfl, HoldsR.single ⟨none, rfl, rfl⟩⟩
    | fromIter es =>
      obtain ⟨m, e', rfl⟩ := Option.map_eq_some_iff.1 e
      have := hextend_spec hN es (r := none) BTree.BTreeMap.wf_new e'
      refine wp_bind (wp_conseq this ?_)
      rintro x L h
      exact wp_pure ⟨rfl, HoldsR.single h⟩
  one {h m L c y} hI hR e := by
    obtain ⟨r, rfl, rfl⟩ := hR
    have hd : ∀ nd, m.root = some nd → (vt nd).Dep m.len := fun nd hr => dep_len hN hI hr
    cases c with
    | clone =>
      cases e
      refine wp_bind (wp_conseq hclone_spec ?_)
      rintro x L ⟨L', rfl, h⟩
      exact wp_pure ⟨rfl, _, _, rfl, .some ⟨r, rfl, rfl⟩, HoldsR.single h⟩
    | drop =>
      cases e
      refine wp_bind (wp_conseq (hdrop_spec (dep_lenO hN hI)) ?_)
      rintro x L rfl
      exact wp_pure ⟨rfl, 0, 0, rfl, .none, .nil⟩
    | clear =>
      cases e
      refine wp_bind (wp_bind (wp_conseq (hdrop_spec (dep_lenO hN hI)) ?_))
      rintro x L rfl
      exact wp_pure (wp_pure (post1 ⟨none, rfl, rfl⟩))
    | insert k v =>
      obtain ⟨z, e1, rfl⟩ := Option.map_eq_some_iff.1 e
      refine wp_bind (wp_conseq (hinsert_spec hd e1) ?_)
      rintro x L ⟨h, h2⟩
      exact wp_pure (by rw [h2]; exact post1 h)
    | remove q =>
      obtain ⟨z, e1, rfl⟩ := Option.map_eq_some_iff.1 e
      refine wp_bind (wp_conseq (hremove_spec hd e1) ?_)
      rintro x L ⟨h, h2⟩
      exact wp_pure (by rw [h2]; exact post1 h)
    | popFirst =>
      obtain ⟨z, e1, rfl⟩ := Option.map_eq_some_iff.1 e
      refine wp_bind (wp_conseq (hpopFirst_spec hd e1) ?_)
      rintro x L ⟨h, h2⟩
      exact wp_pure (by rw [h2]; exact post1 h)
    | popLast =>
      obtain ⟨z, e1, rfl⟩ := Option.map_eq_some_iff.1 e
      refine wp_bind (wp_conseq (hpopLast_spec hd e1) ?_)
      rintro x L ⟨h, h2⟩
      exact wp_pure (by rw [h2]; exact post1 h)
    | getKeyValue q =>
      cases e
      refine wp_bind (wp_conseq (hget_spec hd) ?_)
      rintro x L ⟨rfl, rfl⟩
      exact wp_pure (post1 ⟨r, rfl, rfl⟩)
    | get q =>
      cases e
      refine wp_bind (wp_conseq (hget_spec hd) ?_)
      rintro x L ⟨rfl, rfl⟩
      exact wp_pure (post1 ⟨r, rfl, rfl⟩)
    | containsKey q =>
      cases e
      refine wp_bind (wp_conseq (hcontains_spec hd) ?_)
      rintro x L ⟨rfl, rfl⟩
      exact wp_pure (post1 ⟨r, rfl, rfl⟩)
    | getMut q g =>
      cases e
      refine wp_bind (wp_conseq (hgetMut_spec hd) ?_)
      rintro x L ⟨h, h2⟩
      exact wp_pure (by rw [h2]; exact post1 h)
    | first =>
      obtain ⟨z, e1, rfl⟩ := Option.map_eq_some_iff.1 e
      refine wp_bind (wp_conseq (hfirst_spec hd e1) ?_)
      rintro x L ⟨rfl, rfl⟩
      exact wp_pure (post1 ⟨r, rfl, rfl⟩)
    | last =>
      cases e
      refine wp_bind (wp_conseq (hlast_spec hd) ?_)
      rintro x L ⟨rfl, rfl⟩
      exact wp_pure (post1 ⟨r, rfl, rfl⟩)
    | len => cases e; exact wp_pure (post1 ⟨r, rfl, rfl⟩)
    | isEmpty => cases e; exact wp_pure (post1 ⟨r, rfl, rfl⟩)
    | iter ds =>
      obtain ⟨z, e1, rfl⟩ := Option.map_eq_some_iff.1 e
      refine wp_bind (wp_conseq (hiter_spec hN hI e1) ?_)
      rintro x L ⟨rfl, rfl⟩
      exact wp_pure (post1 ⟨r, rfl, rfl⟩)
    | intoIter ds =>
      simp only [btreeV, BTree.BTreeMap.intoIter_run_spec hN hI, Option.map_some] at e
      cases e
      refine wp_bind (wp_conseq (intoRun_spec hd (BTree.BTreeMap.iter_run_spec hN hI ds)) ?_)
      rintro x L ⟨rfl, rfl⟩
      exact wp_pure ⟨rfl, 0, 0, rfl, .none, .nil⟩
    | iterMut g ds =>
      obtain ⟨z, e1, rfl⟩ := Option.map_eq_some_iff.1 e
      have hs : (slots (gives z)).Nodup := by
        have h1 := BTree.BTreeMap.iter_run_spec hN hI.label ds
        rw [e1, BTree.BTreeMap.label_abs] at h1
        have hf := BTree.mut_facts m.abs.zipIdx ds 0 (BTree.BTreeMap.nodup_slots m.abs)
        simp only [Nat.add_zero, List.map_id'] at hf
        cases h1
        rw [slots_gives]
        exact hf.2.2
      refine wp_bind (wp_bind (wp_conseq (iterMutRun_spec hd hd e1 hs) ?_))
      rintro ⟨x, y⟩ L ⟨h1, rfl⟩
      dsimp only at h1
      subst h1
      exact wp_pure (wp_pure (post1 ⟨x, rfl, by rw [written_root]⟩))
    | range lb ub ds =>
      simp only [btreeV] at e
      simp only [btreeM, HMap.range]
      by_cases hc : lb.bad ub = true
      · rw [if_pos hc]
        rw [BTreeMap.range, if_pos hc] at e
        cases e
        exact wp_pure (post1 ⟨r, rfl, rfl⟩)
      · rw [if_neg hc]
        rw [range_eq b m hc] at e
        cases hw : m.root.elim (some []) (BTree.mkWork (lb.bnd b) (ub.bnd b)) with
        | none =>
          rw [hw] at e
          cases e
          refine wp_bind (wp_conseq (rangeRun_spec (ys := none) hd ?_ ?_) ?_)
          · intro w h; rw [hw] at h; cases h
          · intro _; rfl
          · rintro x L ⟨rfl, rfl⟩
            exact wp_pure (post1 ⟨r, rfl, rfl⟩)
        | some w =>
          rw [hw] at e
          obtain ⟨z, e1, rfl⟩ := Option.map_eq_some_iff.1 e
          refine wp_bind (wp_conseq (rangeRun_spec (ys := some z) hd ?_ ?_) ?_)
          · intro w' h; rw [hw] at h; cases h; exact ⟨z, e1, rfl⟩
          · intro h; rw [hw] at h; cases h
          · rintro x L ⟨rfl, rfl⟩
            exact wp_pure (post1 ⟨r, rfl, rfl⟩)
    | rangeMut lb ub g ds =>
      simp only [btreeV] at e
      simp only [btreeM, HMap.rangeMut]
      by_cases hc : lb.bad ub = true
      · rw [if_pos hc]
        rw [BTreeMap.range, if_pos hc] at e
        cases e
        exact wp_pure (post1 ⟨r, rfl, rfl⟩)
      · rw [if_neg hc]
        have hs : ∀ {it z}, m.label.range b lb ub = some it → nodeOps.run ds it = some z →
            (slots (gives z)).Nodup := by
          intro it z e1 e2
          rw [slots_gives]
          exact slots_nodup_range hb hN hI e1 e2
        have e0 := range_eq b m.label hc
        rw [e0] at e hs
        cases hw : m.label.root.elim (some []) (BTree.mkWork (lb.bnd b) (ub.bnd b)) with
        | none =>
          rw [hw] at e
          cases e
          refine wp_bind (wp_bind (wp_conseq (rangeMutRun_spec hd hd
            (Q := fun r' x L => x = none ∧ L = own r' (vtO m.root)) ?_ ?_) ?_))
          · intro w h
            have h := hw.symm.trans h
            cases h
          · intro _ r'; exact ⟨rfl, rfl⟩
          · rintro ⟨x, y⟩ L ⟨h1, rfl⟩
            dsimp only at h1
            subst h1
            exact wp_pure (wp_pure (post1 ⟨x, rfl, rfl⟩))
        | some w =>
          rw [hw] at e hs
          obtain ⟨z, e1, rfl⟩ := Option.map_eq_some_iff.1 e
          refine wp_bind (wp_bind (wp_conseq (rangeMutRun_spec hd hd
            (Q := fun r' x L => x = some (seenOf z) ∧ L = own r' (vtO (written g m z).root))
            ?_ ?_) ?_))
          · intro w' h
            have h := hw.symm.trans h
            cases h
            refine ⟨z, e1, hs rfl e1, ?_⟩
            intro r'
            exact ⟨rfl, by rw [written_root]⟩
          · intro h
            have h := hw.symm.trans h
            cases h
          · rintro ⟨x, y⟩ L ⟨h1, rfl⟩
            dsimp only at h1
            subst h1
            exact wp_pure (wp_pure (post1 ⟨x, rfl, rfl⟩))
    | retain f s =>
      cases e
      refine wp_bind (wp_conseq (hretain_spec hN hI .unique) ?_)
      intro x L h
      cases e : m.retain N .unique f s with
      | done s' m' =>
        rw [e] at h
        exact wp_pure (by simp only [h.2]; exact post1 h.1)
      | panicked m' =>
        rw [e] at h
        exact wp_pure (by simp only [h.2]; exact post1 h.1)
    | extend es =>
      obtain ⟨z, e1, rfl⟩ := Option.map_eq_some_iff.1 e
      refine wp_bind (wp_conseq (hextend_spec hN es hI e1) ?_)
      rintro x L h
      exact wp_pure (post1 h)
    | splitOff q =>
      obtain ⟨z, e1, rfl⟩ := Option.map_eq_some_iff.1 e
      rw [BTreeMap.splitOff, BTree.BTreeMap.intoList_spec hN hI] at e1
      refine wp_bind (wp_conseq (hsplitOff_spec hN hI (a := z.1) (b := z.2) e1) ?_)
      rintro x L ⟨L1, L2, rfl, h1, h2⟩
      exact wp_pure ⟨rfl, L1, L2, rfl, .some h1, HoldsR.single h2⟩
    | intoVec =>
      simp only [btreeV, BTree.BTreeMap.intoList_spec hN hI, Option.map_some] at e
      cases e
      refine wp_bind (wp_conseq (hintoVec_spec hN hI) ?_)
      rintro x L ⟨rfl, rfl⟩
      exact wp_pure ⟨rfl, 0, 0, rfl, .none, .nil⟩
    | serialize =>
      simp only [btreeV, BTreeMap.serialize, BTree.BTreeMap.iterList_spec hN hI] at e
      cases e
      refine wp_bind (wp_conseq (hiterList_spec hN hI) ?_)
      rintro x L ⟨rfl, rfl⟩
      exact wp_pure (post1 ⟨r, rfl, rfl⟩)
    | orInsert k d g =>
      refine wp_bind (wp_conseq (horInsert_spec hN hI e) ?_)
      rintro x L ⟨h1, h2, m', h3, h4⟩
      exact wp_pure (by rw [h1, h2, h3]; exact post1 h4)
    | andModify k g =>
      cases e
      refine wp_bind (wp_bind (wp_conseq (hgetMut_spec hd) ?_))
      rintro x L ⟨h, h2⟩
      exact wp_pure (wp_pure (post1 h))
  two {h m L k n L' c y} hI hJ hR hR' e := by
    obtain ⟨r, rfl, rfl⟩ := hR
    obtain ⟨r', rfl, rfl⟩ := hR'
    cases c with
    | append =>
      simp only [btreeV, BTreeMap.append, BTree.BTreeMap.intoList_spec hN hJ, Option.map_map] at e
      obtain ⟨z, e1, rfl⟩ := Option.map_eq_some_iff.1 e
      refine wp_bind (wp_conseq (happend_spec hN hI hJ e1) ?_)
      intro x L h
      exact wp_pure ⟨rfl, L, 0, 0, by simp, .some h, .some ⟨none, rfl, rfl⟩, .nil⟩
  look {h m L k n L' c y M G G'} hI hJ hR hR' e1 e2 e := by
    obtain ⟨r, rfl, rfl⟩ := hR
    obtain ⟨r', rfl, rfl⟩ := hR'
    have look1 : ∀ {α : Type} {Q : α → Multiset (Handle (ND K V)) → Prop} (f : List (K × V) → Prog (ND K V) α),
        wp (f m.abs) M Q → wp ((HMap.iterList ⟨m.len, r⟩).bind f) M Q := by
      intro α Q f h
      refine wp_call G (hiterList_spec hN hI) e1 ?_
      rintro x L ⟨rfl, rfl⟩
      rwa [← e1]
    have look2 : ∀ {α : Type} {Q : α → Multiset (Handle (ND K V)) → Prop} (f : List (K × V) → Prog (ND K V) α),
        wp (f n.abs) M Q → wp ((HMap.iterList ⟨n.len, r'⟩).bind f) M Q := by
      intro α Q f h
      refine wp_call G' (hiterList_spec hN hJ) e2 ?_
      rintro x L ⟨rfl, rfl⟩
      rwa [← e2]
    cases c with
    | eq eqE =>
      simp only [btreeV, BTreeMap.eqMap, BTree.BTreeMap.iterList_spec hN hI,
        BTree.BTreeMap.iterList_spec hN hJ] at e
      simp only [btreeM, HMap.eqMap]
      split at e
      · next hl =>
        cases e
        rw [if_pos hl]
        refine wp_bind (look1 _ (look2 _ ?_))
        exact wp_pure (wp_pure ⟨rfl, rfl⟩)
      · next hl =>
        cases e
        rw [if_neg hl]
        exact wp_pure ⟨rfl, rfl⟩
    | partialCmp cmpE =>
      simp only [btreeV, BTreeMap.partialCmpMap, BTree.BTreeMap.iterList_spec hN hI,
        BTree.BTreeMap.iterList_spec hN hJ] at e
      cases e
      exact look1 _ (look2 _ (wp_pure ⟨rfl, rfl⟩))
    | cmp cmpE =>
      simp only [btreeV, BTreeMap.cmpMap, BTree.BTreeMap.iterList_spec hN hI,
        BTree.BTreeMap.iterList_spec hN hJ] at e
      cases e
      exact look1 _ (look2 _ (wp_pure ⟨rfl, rfl⟩))

/-! ## The same with deep copies -/

/-- The operations on memory with `clone` replaced by a copy of all nodes.  Not code of the crate:
it is what clones are compared with. -/
def btreeD (K V S : Type) {Q : Type} [Ord K] [Ord Q] (N : Nat) (b : K → Q) :
    Machine.Impl (Prog (ND K V)) HMap (Res K V S) (Make K V) (One K V Q S) Two (Look K V) where
  make := (btreeM K V S N b).make
  one m
    | .clone => (deepClone m.len m.root).bind fun r => .pure (some m, [⟨m.len, r⟩], .unit)
    | c => (btreeM K V S N b).one m c
  two := (btreeM K V S N b).two
  look := (btreeM K V S N b).look

theorem btreeD_sound (hN : 1 ≤ N) (hb : ∀ a c, compare (b a) (b c) = compare a c) :
    Sound (btreeD K V S N b) (btreeV K V S N b) (WF N) R where
  make := (btreeM_sound hN hb).make
  one {h m L c y} hI hR e := by
    cases c
    case clone =>
      obtain ⟨r, rfl, rfl⟩ := hR
      cases e
      refine wp_bind (wp_conseq (wp_deepClone (dep_lenO hN hI)) ?_)
      rintro x L rfl
      exact wp_pure ⟨rfl, _, _, rfl, .some ⟨r, rfl, rfl⟩, HoldsR.single ⟨x, rfl, rfl⟩⟩
    all_goals exact (btreeM_sound hN hb).one hI hR e
  two := (btreeM_sound hN hb).two
  look := (btreeM_sound hN hb).look

end
end Verif.BTreeH
