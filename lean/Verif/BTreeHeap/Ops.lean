import Verif.BTreeHeap.Spec
import Verif.BTree.Shape
/-!
# Updates of nodes of `btree.rs` on reference-counted memory, against those on values
-/
namespace Verif.BTreeH
open Heap
open BTree (Node)
open BTree.Node (vInsert vRemove vSplitOff vPop locate descIdx InsRes)
variable {K V β : Type}

/-! ## `get_mut` -/

theorem getMut_spec {D : Nat} {p : K → Ordering} {g : V → V} : ∀ {n : Nat} {nd : Node K V}
    {x : HN K V}, (vt nd).Dep n → (vt nd).Dep D → Fits x nd →
    wp (getMut D p g n x) (owns x.kids (vts nd.kids))
      (Turns (nd.getMut p g).1 (fun b L => b = (nd.getMut p g).2 ∧ L = 0)) := by
  intro n
  induction n with
  | zero => intro nd x hn; obtain ⟨_, h⟩ := dep_pos hn; cases h
  | succ n ih =>
    rintro ⟨_, kt⟩ ⟨es, ks⟩ hn hD ⟨rfl, hl⟩
    simp only [BTree.Node.kids, BTree.Node.elems] at hl ⊢
    simp only [getMut, BTree.Node.getMut, BTree.Node.getMutAt_eq]
    by_cases h1 : (locate p es).2 = true
    · rw [if_pos h1, if_pos h1]
      exact wp_pure ⟨0, ⟨rfl, hl⟩, by simp, rfl, rfl⟩
    · rw [if_neg h1, if_neg h1, hl]
      generalize descIdx (locate p es).1 es ks.length = i
      by_cases h2 : i < ks.length
      · have hc : kt[i]? = some kt[i] := List.getElem?_eq_getElem (by omega)
        have hD' := hD
        obtain ⟨D, rfl⟩ := dep_pos hD
        have hm : kt[i] ∈ kt := List.getElem_mem _
        rw [if_pos h2, hc]
        dsimp only
        wcall mutKid_spec0 hl hc ((dep_mk.1 hD _ hm).mono (Nat.le_succ D))
          (fun x hx => ih (dep_mk.1 hn _ hm) ((dep_mk.1 hD _ hm).mono (Nat.le_succ D)) hx)
        rintro ⟨ks', b⟩ _ ⟨_, h3, rfl, rfl, rfl⟩
        exact wp_pure ⟨0, ⟨rfl, by simp [hl, h3]⟩, by simp, rfl, rfl⟩
      · have hc : kt[i]? = none := List.getElem?_eq_none (by omega)
        rw [if_neg h2, hc]
        exact wp_pure ⟨0, ⟨rfl, hl⟩, by simp, rfl, rfl⟩

/-! ## `insert` -/

/-- The node after the call. -/
def resNode : InsRes K V → Node K V
  | .replaced _ n => n
  | .split _ _ n => n
  | .absorbed n => n

/-- The result of `insert` in memory, against that on values. -/
def InsR : InsRes K V → HIns K V → Multiset (Handle (ND K V)) → Prop
  | .replaced o _, y, L => y = .replaced o ∧ L = 0
  | .split lhs kv _, y, L => ∃ a, y = .split a kv ∧ L = own (some a) (vt lhs)
  | .absorbed _, y, L => y = .absorbed ∧ L = 0

theorem vSplitOff_some {α : Type} {i : Nat} {l : List α} {r} (h : vSplitOff i l = some r) :
    i ≤ l.length ∧ r = (l.take i, l.drop i) := by
  unfold vSplitOff at h
  split at h
  · exact ⟨‹_›, (Option.some.inj h).symm⟩
  · cases h

theorem vInsert_some {α : Type} {i : Nat} {x : α} {l r} (h : vInsert i x l = some r) :
    i ≤ l.length ∧ r = l.take i ++ x :: l.drop i := by
  unfold vInsert at h
  split at h
  · exact ⟨‹_›, (Option.some.inj h).symm⟩
  · cases h

theorem vRemove_some {α : Type} {i : Nat} {l : List α} {r} (h : vRemove i l = some r) :
    l[i]? = some r.1 ∧ r.2 = l.eraseIdx i := by
  unfold vRemove at h
  split at h
  · cases h
  · cases h
    exact ⟨‹_›, by rw [List.eraseIdx_eq_take_drop_succ]⟩

theorem vRemove_of {α : Type} {i : Nat} {l : List α} {x} (h : l[i]? = some x) :
    vRemove i l = some (x, l.eraseIdx i) := by
  unfold vRemove
  rw [h, List.eraseIdx_eq_take_drop_succ]

theorem split_spec {N : Nat} {x : HN K V} {es : List (K × V)} {kt : List (Node K V)}
    {r : InsRes K V} (hr : BTree.Node.split N es kt = some r) (hx : Fits x (.mk es kt)) :
    wp (split N x) (owns x.kids (vts kt)) (Turns (resNode r) (InsR r)) := by
  obtain ⟨es, ks⟩ := x
  obtain ⟨rfl, hl⟩ := hx
  simp only [BTree.Node.kids, BTree.Node.elems] at hl ⊢
  unfold BTree.Node.split at hr
  unfold split
  simp only
  split at hr
  · cases hr
  rename_i h1
  rw [if_neg h1]
  cases e1 : vSplitOff (N + 1) es with
  | none => rw [e1] at hr; cases hr
  | some r1 =>
    obtain ⟨es1, es2⟩ := r1
    rw [e1] at hr
    dsimp only at hr
    cases e2 : splitKids N kt with
    | none => unfold splitKids at e2; rw [e2] at hr; cases hr
    | some r2 =>
      obtain ⟨kt1, kt2⟩ := r2
      have e2' := e2
      unfold splitKids at e2'
      rw [e2'] at hr
      dsimp only at hr
      cases e3 : vPop es1 with
      | none => rw [e3] at hr; cases hr
      | some r3 =>
        obtain ⟨mid, es0⟩ := r3
        rw [e3] at hr
        cases hr
        obtain ⟨ks1, ks2, e4, h4, h5, h6⟩ : ∃ ks1 ks2, splitKids N ks = some (ks1, ks2) ∧
            kt1.length = ks1.length ∧ kt2.length = ks2.length ∧
            owns ks (vts kt) = owns ks1 (vts kt1) + owns ks2 (vts kt2) := by
          unfold splitKids at e2 ⊢
          by_cases hk : kt = []
          · subst hk
            have : ks = [] := List.length_eq_zero_iff.1 hl.symm
            subst this
            simp at e2
            obtain ⟨rfl, rfl⟩ := e2
            exact ⟨[], [], by simp, rfl, rfl, by simp [vts]⟩
          · have hk' : ks ≠ [] := by
              rintro rfl; exact hk (List.length_eq_zero_iff.1 hl)
            rw [if_neg (by simpa using hk)] at e2
            obtain ⟨h7, h8⟩ := vSplitOff_some e2
            cases h8
            refine ⟨ks.take (N + 1), ks.drop (N + 1), ?_, by simp [hl], by simp [hl], ?_⟩
            · rw [if_neg (by simpa using hk')]
              unfold vSplitOff
              rw [if_pos (by omega)]
            · rw [vts_take, vts_drop]
              exact owns_take_drop _ (by simp [hl])
        rw [e4]
        simp only [e3]
        rw [h6]
        wcall alloc_spec (p := es0) (ks := ks1) (ts := vts kt1) (by simp [h4])
        rintro a _ rfl
        refine wp_forget (owns ks2 (vts kt2)) rfl ?_
        refine wp_pure ⟨own (some a) (vt (.mk es0 kt1)), ⟨rfl, h5⟩, ?_, a, rfl, rfl⟩
        rw [vt_mk, add_comm]; rfl

/-- A link and the node it stands for. -/
def ownO : Option Nat → Option (Node K V) → Multiset (Handle (ND K V))
  | some a, some nd => own (some a) (vt nd)
  | _, _ => 0

theorem absorb_spec {N i : Nat} {kv : K × V} {x : HN K V} {es : List (K × V)}
    {kt : List (Node K V)} {lhs : Option Nat} {lt : Option (Node K V)} {r : InsRes K V}
    (hlt : lhs.isSome = lt.isSome)
    (hr : BTree.Node.absorb N i lt kv es kt = some r) (hx : Fits x (.mk es kt)) :
    wp (absorb N i lhs kv x) (owns x.kids (vts kt) + ownO lhs lt)
      (Turns (resNode r) (InsR r)) := by
  obtain ⟨es, ks⟩ := x
  obtain ⟨rfl, hl⟩ := hx
  simp only [BTree.Node.kids, BTree.Node.elems] at hl ⊢
  unfold BTree.Node.absorb at hr
  unfold absorb
  simp only
  cases e1 : vInsert i kv es with
  | none => rw [e1] at hr; cases hr
  | some es' =>
    rw [e1] at hr
    dsimp only at hr
    have hfin : ∀ {ks' kt'}, kt'.length = ks'.length →
        (if es'.length ≤ 2 * N + 1 then some (InsRes.absorbed (.mk es' kt'))
          else BTree.Node.split N es' kt') = some r →
        wp (if es'.length ≤ 2 * N + 1 then .pure (⟨es', ks'⟩, .absorbed)
          else split N ⟨es', ks'⟩) (owns ks' (vts kt')) (Turns (resNode r) (InsR r)) := by
      intro ks' kt' hl' hr
      split at hr
      · cases hr
        rw [if_pos ‹_›]
        exact wp_pure ⟨0, ⟨rfl, hl'⟩, by simp [resNode], rfl, rfl⟩
      · rw [if_neg ‹_›]
        exact split_spec hr ⟨rfl, hl'⟩
    cases lhs with
    | none =>
      cases lt with
      | some => cases hlt
      | none =>
        simp only at hr ⊢
        rw [show ownO none (none : Option (Node K V)) = 0 from rfl, add_zero]
        exact hfin hl hr
    | some a =>
      cases lt with
      | none => cases hlt
      | some nd =>
        dsimp only at hr
        cases e2 : vInsert i nd kt with
        | none => rw [e2] at hr; cases hr
        | some kt' =>
          rw [e2] at hr
          dsimp only at hr
          obtain ⟨h1, rfl⟩ := vInsert_some e2
          have e3 : vInsert i (some a) ks = some (ks.take i ++ some a :: ks.drop i) := by
            unfold vInsert; rw [if_pos (by omega)]
          dsimp only
          rw [e3]
          dsimp only
          have := hfin (ks' := ks.take i ++ some a :: ks.drop i)
            (kt' := kt.take i ++ nd :: kt.drop i) (by simp [hl]) hr
          rw [vts_append, vts, owns_append (by simp [hl]), owns_cons, vts_take, vts_drop] at this
          rw [owns_take_drop i (by simp [hl])]
          show wp _ (_ + own (some a) (vt nd)) _
          rw [show owns (ks.take i) ((vts kt).take i) + owns (ks.drop i) ((vts kt).drop i) +
            own (some a) (vt nd) = owns (ks.take i) ((vts kt).take i) +
              (own (some a) (vt nd) + owns (ks.drop i) ((vts kt).drop i)) by ac_rfl]
          exact this

theorem ins_spec [Ord K] {N D : Nat} {k : K} {v : V} : ∀ {n : Nat} {nd : Node K V}
    {x : HN K V} {r : InsRes K V}, (vt nd).Dep n → (vt nd).Dep D → Fits x nd →
    nd.ins N k v = some r →
    wp (ins N D k v n x) (owns x.kids (vts nd.kids)) (Turns (resNode r) (InsR r)) := by
  intro n
  induction n with
  | zero => intro nd x r hn; obtain ⟨_, h⟩ := dep_pos hn; cases h
  | succ n ih =>
    rintro ⟨_, kt⟩ ⟨es, ks⟩ r hn hD ⟨rfl, hl⟩ hr
    simp only [BTree.Node.kids, BTree.Node.elems] at hl ⊢
    simp only [BTree.Node.ins, BTree.Node.insAt_eq] at hr
    simp only [ins]
    by_cases h1 : (locate (compare k) es).2 = true
    · rw [if_pos h1] at hr ⊢
      cases e1 : es[(locate (compare k) es).1]? with
      | none => rw [e1] at hr; cases hr
      | some e =>
        rw [e1] at hr
        cases hr
        exact wp_pure ⟨0, ⟨rfl, hl⟩, by simp [resNode], rfl, rfl⟩
    · rw [if_neg h1] at hr ⊢
      generalize (locate (compare k) es).1 = i at hr ⊢
      by_cases h2 : i < ks.length
      · have hc : kt[i]? = some kt[i] := List.getElem?_eq_getElem (by omega)
        obtain ⟨D, rfl⟩ := dep_pos hD
        have hm : kt[i] ∈ kt := List.getElem_mem _
        rw [hc] at hr
        rw [if_pos h2]
        simp only [Option.map_some] at hr
        cases e2 : BTree.Node.ins N k v kt[i] with
        | none => rw [e2] at hr; cases hr
        | some r' =>
          rw [e2] at hr
          wcall mutKid_spec0 hl hc ((dep_mk.1 hD _ hm).mono (Nat.le_succ D))
            (fun x hx => ih (dep_mk.1 hn _ hm) ((dep_mk.1 hD _ hm).mono (Nat.le_succ D)) hx e2)
          rintro ⟨ks', y⟩ _ ⟨L2, h3, rfl, h4⟩
          dsimp only at h3 h4
          rw [add_zero]
          cases r' with
          | replaced o c =>
            obtain ⟨rfl, rfl⟩ := h4
            cases hr
            exact wp_pure ⟨0, ⟨rfl, by simp [resNode, hl, h3]⟩, by simp [resNode], rfl, rfl⟩
          | absorbed c =>
            obtain ⟨rfl, rfl⟩ := h4
            cases hr
            exact wp_pure ⟨0, ⟨rfl, by simp [resNode, hl, h3]⟩, by simp [resNode], rfl, rfl⟩
          | split lhs kv c =>
            obtain ⟨a, rfl, rfl⟩ := h4
            exact absorb_spec (lhs := some a) (lt := some lhs) rfl hr
              (x := ⟨es, ks'⟩) ⟨rfl, by simp [hl, h3]⟩
      · have hc : kt[i]? = none := List.getElem?_eq_none (by omega)
        rw [hc] at hr
        rw [if_neg h2]
        have := absorb_spec (lhs := none) (lt := none) rfl hr (x := ⟨es, ks⟩) ⟨rfl, hl⟩
        rw [show ownO none (none : Option (Node K V)) = 0 from rfl, add_zero] at this
        exact this

end Verif.BTreeH
