import Verif.FixedHeap.Model
import Verif.FixedHeap.Slots
import Verif.BTreeHeap.Access
import Verif.Fixed.Spec
/-!
# Access to and insertion into the nodes of `core.rs` on reference-counted memory

Each function, run on contents that stand for the node `nd`, does not panic if the function on
values (`Verif.Fixed.Model`) does not, leaves the handles of everybody else alone, and returns
contents that stand for what the function on values computes from `nd`.
-/
namespace Verif.FixedH
open Heap BTreeH Fixed
open BTree (Node)
open BTree.Node (locate InsRes Ok)
variable {K V : Type}

theorem bsearch_le {f : Nat → Option Ordering} {n i : Nat} {b : Bool}
    (hf : ∀ j o, f j = some o → j < n) (h : bsearch f n = some (i, b)) : i ≤ n := by
  unfold bsearch at h
  split at h
  · cases h
  · rename_i base _
    split at h
    · cases h
    all_goals
      rename_i e
      have := hf _ _ e
      cases h
      omega

theorem searchKeys_le {lin : Bool} {p : K → Ordering} {es : List (K × V)} {i : Nat} {b : Bool}
    (h : searchKeys lin p es = some (i, b)) : i ≤ es.length := by
  unfold searchKeys at h
  split at h
  · cases h
  · split at h
    · have := BTree.Node.locate_le p es
      cases lx : locate p es
      rw [lx] at h this
      cases h
      exact this
    · refine bsearch_le (fun j o hj => ?_) h
      obtain ⟨_, h1, _⟩ := Option.map_eq_some_iff.1 hj
      exact (List.getElem?_eq_some_iff.1 h1).1

/-! ## Access -/

theorem getAt_spec {lin : Bool} {a : Nat} {t : VT (ND K V)} {u : Bool} {p : K → Ordering} :
    ∀ {n : Nat} {nd : Node K V} {path : List Nat} {r : Option (K × V)},
    t.sub path = some (vt nd) → (vt nd).Dep n → Fixed.get lin p nd = some r →
    wp (getAt lin a p n path) {⟨some a, t, u⟩}
      (fun x L => x = r ∧ L = {⟨some a, t, u⟩}) := by
  intro n
  induction n with
  | zero => intro nd path r _ hn; obtain ⟨_, h⟩ := dep_pos hn; cases h
  | succ n ih =>
    rintro ⟨es, kt⟩ path r hp hn hr
    simp only [getAt]
    simp only [Fixed.get, Fixed.getAt_eq] at hr
    wcall readN_spec hp
    rintro ⟨es, ks⟩ _ ⟨⟨rfl, hl⟩, rfl⟩
    simp only [BTree.Node.kids, BTree.Node.elems] at hl hr ⊢
    rw [add_zero]
    cases e1 : searchKeys lin p es with
    | none => rw [e1] at hr; cases hr
    | some ib =>
      obtain ⟨i, b⟩ := ib
      rw [e1] at hr
      cases b with
      | true =>
        dsimp only at hr ⊢
        obtain ⟨e, h1, rfl⟩ := Option.map_eq_some_iff.1 hr
        rw [h1]
        exact wp_pure ⟨rfl, rfl⟩
      | false =>
        dsimp only at hr ⊢
        by_cases h2 : i < ks.length
        · have hc : kt[i]? = some kt[i] := List.getElem?_eq_getElem (by omega)
          rw [hc] at hr
          rw [if_pos h2]
          exact ih (sub_kid hp hc) (dep_mk.1 hn _ (List.getElem_mem _)) hr
        · rw [List.getElem?_eq_none (by omega)] at hr
          cases hr
          rw [if_neg h2]
          exact wp_pure ⟨rfl, rfl⟩

theorem getMut_spec {lin : Bool} {D : Nat} {p : K → Ordering} {g : V → V} :
    ∀ {n : Nat} {nd : Node K V} {x : HN K V} {r : Node K V × Bool},
    (vt nd).Dep n → (vt nd).Dep D → Fits x nd → Fixed.getMut lin p g nd = some r →
    wp (getMut lin D p g n x) (owns x.kids (vts nd.kids))
      (Turns r.1 (fun b L => b = r.2 ∧ L = 0)) := by
  intro n
  induction n with
  | zero => intro nd x r hn; obtain ⟨_, h⟩ := dep_pos hn; cases h
  | succ n ih =>
    rintro ⟨_, kt⟩ ⟨es, ks⟩ r hn hD ⟨rfl, hl⟩ hr
    simp only [BTree.Node.kids, BTree.Node.elems] at hl hr ⊢
    simp only [getMut]
    simp only [Fixed.getMut, Fixed.getMutAt_eq] at hr
    cases e1 : searchKeys lin p es with
    | none => rw [e1] at hr; cases hr
    | some ib =>
      obtain ⟨i, b⟩ := ib
      rw [e1] at hr
      cases b with
      | true =>
        dsimp only at hr ⊢
        obtain ⟨e, h1, rfl⟩ := Option.map_eq_some_iff.1 hr
        rw [h1]
        exact wp_pure ⟨0, ⟨rfl, hl⟩, by simp, rfl, rfl⟩
      | false =>
        dsimp only at hr ⊢
        by_cases h2 : i < ks.length
        · have hc : kt[i]? = some kt[i] := List.getElem?_eq_getElem (by omega)
          have hm : kt[i] ∈ kt := List.getElem_mem _
          obtain ⟨D, rfl⟩ := dep_pos hD
          rw [hc] at hr
          rw [if_pos h2]
          simp only [Option.map_some] at hr
          cases e2 : Fixed.getMut lin p g kt[i] with
          | none => rw [e2] at hr; cases hr
          | some r' =>
            obtain ⟨c', b'⟩ := r'
            rw [e2] at hr
            cases hr
            wcall mutKid_spec0 hl hc ((dep_mk.1 hD _ hm).mono (Nat.le_succ D))
              (fun x hx => ih (dep_mk.1 hn _ hm) ((dep_mk.1 hD _ hm).mono (Nat.le_succ D)) hx e2)
            rintro ⟨ks', b⟩ _ ⟨_, h3, rfl, rfl, rfl⟩
            exact wp_pure ⟨0, ⟨rfl, by simp [hl, h3]⟩, by simp, rfl, rfl⟩
        · rw [List.getElem?_eq_none (by omega)] at hr
          cases hr
          rw [if_neg h2]
          exact wp_pure ⟨0, ⟨rfl, hl⟩, by simp, rfl, rfl⟩

/-! ## Insertion -/

theorem isEmpty_of_len {α β : Type} {l : List α} {l' : List β} (h : l.length = l'.length) :
    l'.isEmpty = l.isEmpty := by
  rw [Bool.eq_iff_iff, List.isEmpty_iff_length_eq_zero, List.isEmpty_iff_length_eq_zero, h]

theorem insNoSplit_spec {i : Nat} {kv : K × V} {x : HN K V} {es : List (K × V)}
    {kt : List (Node K V)} {lhs : Option Nat} {lt : Option (Node K V)} {r : InsRes K V}
    (hlt : lhs.isSome = lt.isSome)
    (hr : Fixed.insNoSplit i lt kv es kt = some r) (hx : Fits x (.mk es kt)) :
    wp (insNoSplit i lhs kv x) (owns x.kids (vts kt) + ownO lhs lt)
      (Turns (resNode r) (InsR r)) := by
  obtain ⟨es, ks⟩ := x
  obtain ⟨rfl, hl⟩ := hx
  simp only [BTree.Node.kids, BTree.Node.elems] at hl hr ⊢
  unfold Fixed.insNoSplit at hr
  unfold insNoSplit
  simp only
  rw [isEmpty_of_len hl, hlt]
  split at hr
  case isFalse => cases hr
  rename_i h0
  rw [if_pos h0]
  cases e1 : ivInsert MAX i kv es with
  | none => rw [e1] at hr; cases hr
  | some es' =>
    rw [e1] at hr
    dsimp only at hr ⊢
    cases lhs with
    | none =>
      cases lt with
      | some => cases hlt
      | none =>
        cases hr
        exact wp_pure ⟨0, ⟨rfl, hl⟩, rfl, rfl, rfl⟩
    | some a =>
      cases lt with
      | none => cases hlt
      | some nd =>
        dsimp only at hr ⊢
        cases e2 : kInsert i nd kt with
        | none => rw [e2] at hr; cases hr
        | some kt' =>
          rw [e2] at hr
          cases hr
          obtain ⟨h1, h2, rfl⟩ := kInsert_some e2
          rw [kInsert_of (by omega) (by omega)]
          dsimp only
          refine wp_pure ⟨0, ⟨rfl, by simp [resNode, hl]⟩, ?_, rfl, rfl⟩
          simp only [resNode, BTree.Node.kids, add_zero]
          rw [vts_append, vts, owns_append (by simp [hl]), owns_cons, vts_take, vts_drop,
            owns_take_drop i (by simp [hl])]
          show _ + own (some a) (vt nd) = _
          ac_rfl

theorem insSplit_spec {i : Nat} {kv : K × V} {x : HN K V} {es : List (K × V)}
    {kt : List (Node K V)} {lhs : Option Nat} {lt : Option (Node K V)} {r : InsRes K V}
    (hlt : lhs.isSome = lt.isSome) (hi : i ≤ es.length)
    (hk : kt = [] ∨ kt.length = es.length + 1) (hfull : ¬ es.length < MAX)
    (hr : Fixed.absorb i lt kv es kt = some r) (hx : Fits x (.mk es kt)) :
    wp (insSplitH i lhs kv x) (owns x.kids (vts kt) + ownO lhs lt)
      (Turns (resNode r) (InsR r)) := by
  obtain ⟨es, ks⟩ := x
  obtain ⟨rfl, hl⟩ := hx
  simp only [BTree.Node.kids, BTree.Node.elems] at hl hr hi hk hfull ⊢
  unfold Fixed.absorb at hr
  rw [if_neg hfull] at hr
  unfold insSplitH
  simp only
  have h0 : es.length = MAX ∧ (!kt.isEmpty) = lt.isSome := by
    unfold insSplit at hr
    split at hr
    · cases hr
    · rename_i e
      split at e
      · assumption
      · cases e
  obtain ⟨h0, h1⟩ := h0
  have fin : ∀ {ks1 ks2 kt1 kt2 L} {div : K × V} {les res : List (K × V)},
      kt1.length = ks1.length → kt2.length = ks2.length →
      L = owns ks1 (vts kt1) + owns ks2 (vts kt2) →
      wp ((lift (.alloc ⟨les, ks1⟩)).bind fun a => .pure ((⟨res, ks2⟩ : HN K V), HIns.split a div))
        L (Turns (.mk res kt2) (InsR (.split (.mk les kt1) div (.mk res kt2)))) := by
    intro ks1 ks2 kt1 kt2 L div les res h4 h5 h6
    subst h6
    wcall alloc_spec (p := les) (ks := ks1) (ts := vts kt1) (by simp [h4])
    rintro a _ rfl
    refine wp_forget (owns ks2 (vts kt2)) rfl ?_
    refine wp_pure ⟨own (some a) (vt (.mk les kt1)), ⟨rfl, h5⟩, ?_, a, rfl, rfl⟩
    rw [vt_mk, add_comm]; rfl
  rcases hk with rfl | hk
  · have : ks = [] := List.length_eq_zero_iff.1 hl.symm
    subst this
    cases lt with
    | some => simp at h1
    | none =>
      cases lhs with
      | some => cases hlt
      | none =>
        obtain ⟨div, h2, e⟩ := insSplit_leaf (γ := Node K V) (idx := i) kv h0 (by omega)
        obtain ⟨div', h3, e'⟩ := insSplit_leaf (γ := Option Nat) (idx := i) kv h0 (by omega)
        have hd : div = div' := by
          rw [h3] at h2
          exact (Option.some.inj h2).symm
        subst hd
        rw [e] at hr
        cases hr
        simp only [Option.map_none]
        rw [e']
        exact fin rfl rfl (by simp [vts, ownO])
  · cases lt with
    | none => 
      have : kt ≠ [] := by rintro rfl; simp at hk
      simp at h1; exact absurd h1 this
    | some nd =>
      cases lhs with
      | none => cases hlt
      | some a =>
        obtain ⟨div, h2, e⟩ := insSplit_branch (ks := kt) (idx := i) kv nd h0 (by omega) (by omega)
        obtain ⟨div', h3, e'⟩ := insSplit_branch (γ := Option Nat) (ks := ks) (idx := i) kv (some a)
          h0 (by omega) (by omega)
        have hd : div = div' := by
          rw [h3] at h2
          exact (Option.some.inj h2).symm
        subst hd
        rw [e] at hr
        cases hr
        simp only [Option.map_some]
        rw [e']
        refine fin (by simp [hl]) (by simp [hl]) ?_
        have hlen : (vts (kt.take i ++ nd :: kt.drop i)).length =
            (ks.take i ++ some a :: ks.drop i).length := by simp [hl]
        rw [vts_take, vts_drop, ← owns_take_drop _ hlen, vts_append, vts, owns_append (by simp [hl]),
          owns_cons, vts_take, vts_drop, owns_take_drop i (by simp [hl])]
        show _ + own (some a) (vt nd) = _
        ac_rfl

theorem absorb_spec {i : Nat} {kv : K × V} {x : HN K V} {es : List (K × V)}
    {kt : List (Node K V)} {lhs : Option Nat} {lt : Option (Node K V)} {r : InsRes K V}
    (hlt : lhs.isSome = lt.isSome) (hi : i ≤ es.length)
    (hk : kt = [] ∨ kt.length = es.length + 1)
    (hr : Fixed.absorb i lt kv es kt = some r) (hx : Fits x (.mk es kt)) :
    wp (absorb i lhs kv x) (owns x.kids (vts kt) + ownO lhs lt)
      (Turns (resNode r) (InsR r)) := by
  have hd : x.data = es := hx.data
  unfold absorb
  rw [hd]
  by_cases h : es.length < MAX
  · rw [if_pos h]
    unfold Fixed.absorb at hr
    rw [if_pos h] at hr
    exact insNoSplit_spec hlt hr hx
  · rw [if_neg h]
    exact insSplit_spec hlt hi hk h hr hx

theorem ok_kids {N lo h : Nat} {es : List (K × V)} {kt : List (Node K V)}
    (hn : Ok N lo h (.mk es kt)) : kt = [] ∨ kt.length = es.length + 1 := by
  cases h with
  | zero => exact .inl hn.1
  | succ => exact .inr hn.1

theorem ok_kid {N lo h : Nat} {es : List (K × V)} {kt : List (Node K V)} {c : Node K V}
    (hn : Ok N lo h (.mk es kt)) (hc : c ∈ kt) : ∃ h', Ok N N h' c := by
  cases h with
  | zero => rw [hn.1] at hc; cases hc
  | succ h => exact ⟨h, hn.2.2.2 c hc⟩

theorem ins_spec [Ord K] {lin : Bool} {D : Nat} {k : K} {v : V} : ∀ {n : Nat} {nd : Node K V}
    {x : HN K V} {r : InsRes K V} {lo h : Nat}, (vt nd).Dep n → (vt nd).Dep D → Fits x nd →
    Ok MIN lo h nd → Fixed.ins lin k v nd = some r →
    wp (ins lin D k v n x) (owns x.kids (vts nd.kids)) (Turns (resNode r) (InsR r)) := by
  intro n
  induction n with
  | zero => intro nd x r lo h hn; obtain ⟨_, h⟩ := dep_pos hn; cases h
  | succ n ih =>
    rintro ⟨_, kt⟩ ⟨es, ks⟩ r lo h hn hD ⟨rfl, hl⟩ hok hr
    simp only [BTree.Node.kids, BTree.Node.elems] at hl hok hr ⊢
    simp only [Fixed.ins, Fixed.insAt_eq] at hr
    simp only [ins]
    cases e1 : searchKeys lin (compare k) es with
    | none => rw [e1] at hr; cases hr
    | some ib =>
      obtain ⟨i, b⟩ := ib
      have hi := searchKeys_le e1
      rw [e1] at hr
      cases b with
      | true =>
        dsimp only at hr ⊢
        cases e2 : es[i]? with
        | none => rw [e2] at hr; cases hr
        | some e =>
          rw [e2] at hr
          cases hr
          exact wp_pure ⟨0, ⟨rfl, hl⟩, by simp [resNode], rfl, rfl⟩
      | false =>
        dsimp only at hr ⊢
        by_cases h2 : i < ks.length
        · have hc : kt[i]? = some kt[i] := List.getElem?_eq_getElem (by omega)
          obtain ⟨D, rfl⟩ := dep_pos hD
          have hm : kt[i] ∈ kt := List.getElem_mem _
          obtain ⟨h', hokc⟩ := ok_kid hok hm
          rw [hc] at hr
          rw [if_pos h2]
          simp only [Option.map_some] at hr
          cases e2 : Fixed.ins lin k v kt[i] with
          | none => rw [e2] at hr; cases hr
          | some r' =>
            rw [e2] at hr
            wcall mutKid_spec0 hl hc ((dep_mk.1 hD _ hm).mono (Nat.le_succ D))
              (fun x hx => ih (dep_mk.1 hn _ hm) ((dep_mk.1 hD _ hm).mono (Nat.le_succ D)) hx
                hokc e2)
            rintro ⟨ks', y⟩ _ ⟨L2, h3, rfl, h4⟩
            dsimp only at h3 h4
            rw [add_zero]
            cases r' with
            | replaced o c =>
              obtain ⟨rfl, rfl⟩ := h4
              cases hr
              exact wp_pure ⟨0, ⟨rfl, by simp [resNode, hl, h3]⟩, by simp [resNode], rfl, rfl⟩
            | absorbed c =>
              obtain ⟨rfl, rfl⟩ := h4
              cases hr
              exact wp_pure ⟨0, ⟨rfl, by simp [resNode, hl, h3]⟩, by simp [resNode], rfl, rfl⟩
            | split lhs kv c =>
              obtain ⟨a, rfl, rfl⟩ := h4
              refine absorb_spec (lhs := some a) (lt := some lhs) rfl hi ?_ hr
                (x := ⟨es, ks'⟩) ⟨rfl, by simp [hl, h3]⟩
              rcases ok_kids hok with h5 | h5
              · subst h5; exact .inl rfl
              · exact .inr (by simpa using h5)
        · rw [List.getElem?_eq_none (by omega)] at hr
          rw [if_neg h2]
          have := absorb_spec (lhs := none) (lt := none) rfl hi (ok_kids hok) hr (x := ⟨es, ks⟩)
            ⟨rfl, hl⟩
          rw [show ownO none (none : Option (Node K V)) = 0 from rfl, add_zero] at this
          exact this

end Verif.FixedH
