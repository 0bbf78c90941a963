import Verif.BTreeHeap.Remove
import Verif.AvlHeap.Access
/-!
# Access functions of `btree.rs` on reference-counted memory
-/
namespace Verif.BTreeH
open Heap
open BTree (Node)
open BTree.Node (locate descIdx)
variable {K V : Type}

theorem sub_kid {t : VT (ND K V)} {path : List Nat} {nd c : Node K V} {i : Nat}
    (hp : t.sub path = some (vt nd)) (hc : nd.kids[i]? = some c) :
    t.sub (path ++ [i]) = some (vt c) := by
  have : (vts nd.kids)[i]? = some (vt c) := by rw [vts_get, hc]; rfl
  rw [AvlH.sub_append, hp, vt_eta nd]
  simp only [VT.sub, Option.bind_some, this]

section
variable {a : Nat} {t : VT (ND K V)} {u : Bool}

/-- Reading a node. -/
theorem readN_spec {path : List Nat} {nd : Node K V} (hp : t.sub path = some (vt nd)) :
    wp (lift (.read a path)) {⟨some a, t, u⟩} (fun (n : HN K V) L =>
      Fits n nd ∧ L = {⟨some a, t, u⟩}) := by
  rw [vt_eta] at hp
  refine wp_conseq (read_spec hp) ?_
  rintro n _ ⟨h1, h2, _, rfl⟩
  exact ⟨⟨h1, by simpa using h2⟩, rfl⟩

theorem getAt_spec {p : K → Ordering} : ∀ {n : Nat} {nd : Node K V} {path : List Nat},
    t.sub path = some (vt nd) → (vt nd).Dep n →
    wp (getAt a p n path) {⟨some a, t, u⟩}
      (fun x L => x = nd.get p ∧ L = {⟨some a, t, u⟩}) := by
  intro n
  induction n with
  | zero => intro nd path _ hn; obtain ⟨_, h⟩ := dep_pos hn; cases h
  | succ n ih =>
    rintro ⟨es, kt⟩ path hp hn
    simp only [getAt, BTree.Node.get, BTree.Node.getAt_eq]
    wcall readN_spec hp
    rintro ⟨es, ks⟩ _ ⟨⟨rfl, hl⟩, rfl⟩
    simp only [BTree.Node.kids, BTree.Node.elems] at hl ⊢
    rw [add_zero]
    by_cases h1 : (locate p es).2 = true
    · rw [if_pos h1, if_pos h1]
      exact wp_pure ⟨rfl, rfl⟩
    · rw [if_neg h1, if_neg h1, hl]
      generalize descIdx (locate p es).1 es ks.length = i
      by_cases h2 : i < ks.length
      · have hc : kt[i]? = some kt[i] := List.getElem?_eq_getElem (by omega)
        rw [if_pos h2, hc]
        exact ih (sub_kid hp hc) (dep_mk.1 hn _ (List.getElem_mem _))
      · rw [if_neg h2, List.getElem?_eq_none (by omega)]
        exact wp_pure ⟨rfl, rfl⟩

theorem containsAt_spec {p : K → Ordering} : ∀ {n : Nat} {nd : Node K V} {path : List Nat},
    t.sub path = some (vt nd) → (vt nd).Dep n →
    wp (containsAt a p n path) {⟨some a, t, u⟩}
      (fun x L => x = nd.contains p ∧ L = {⟨some a, t, u⟩}) := by
  intro n
  induction n with
  | zero => intro nd path _ hn; obtain ⟨_, h⟩ := dep_pos hn; cases h
  | succ n ih =>
    rintro ⟨es, kt⟩ path hp hn
    simp only [containsAt, BTree.Node.contains, BTree.Node.containsAt_eq]
    wcall readN_spec hp
    rintro ⟨es, ks⟩ _ ⟨⟨rfl, hl⟩, rfl⟩
    simp only [BTree.Node.kids, BTree.Node.elems] at hl ⊢
    rw [add_zero]
    by_cases h1 : (locate p es).2 = true
    · rw [if_pos h1, if_pos h1]
      exact wp_pure ⟨rfl, rfl⟩
    · rw [if_neg h1, if_neg h1]
      generalize (locate p es).1 = i
      by_cases h2 : i < ks.length
      · have hc : kt[i]? = some kt[i] := List.getElem?_eq_getElem (by omega)
        rw [if_pos h2, hc]
        exact ih (sub_kid hp hc) (dep_mk.1 hn _ (List.getElem_mem _))
      · rw [if_neg h2, List.getElem?_eq_none (by omega)]
        exact wp_pure ⟨rfl, rfl⟩

theorem firstAt_spec : ∀ {n : Nat} {nd : Node K V} {path : List Nat} {e : K × V},
    t.sub path = some (vt nd) → (vt nd).Dep n → nd.first = some e →
    wp (firstAt a n path) {⟨some a, t, u⟩} (fun x L => x = e ∧ L = {⟨some a, t, u⟩}) := by
  intro n
  induction n with
  | zero => intro nd path e _ hn; obtain ⟨_, h⟩ := dep_pos hn; cases h
  | succ n ih =>
    rintro ⟨es, kt⟩ path e hp hn he
    simp only [BTree.Node.first, BTree.Node.firstAt_eq] at he
    simp only [firstAt]
    wcall readN_spec hp
    rintro ⟨es, ks⟩ _ ⟨⟨rfl, hl⟩, rfl⟩
    simp only [BTree.Node.kids, BTree.Node.elems] at hl ⊢
    rw [add_zero]
    cases kt with
    | nil =>
      rw [if_neg (by rw [← hl]; simp)]
      simp only [List.head?_nil, Option.map_none] at he
      rw [he]
      exact wp_pure ⟨rfl, rfl⟩
    | cons c kt =>
      rw [if_pos (by rw [← hl]; simp)]
      simp only [List.head?_cons, Option.map_some] at he
      exact ih (sub_kid (c := c) hp rfl) (dep_mk.1 hn _ (by simp)) he

theorem lastAt_spec : ∀ {n : Nat} {nd : Node K V} {path : List Nat},
    t.sub path = some (vt nd) → (vt nd).Dep n →
    wp (lastAt a n path) {⟨some a, t, u⟩}
      (fun x L => x = nd.last ∧ L = {⟨some a, t, u⟩}) := by
  intro n
  induction n with
  | zero => intro nd path _ hn; obtain ⟨_, h⟩ := dep_pos hn; cases h
  | succ n ih =>
    rintro ⟨es, kt⟩ path hp hn
    simp only [BTree.Node.last, BTree.Node.lastAt_eq, List.getLast?_eq_getElem?]
    simp only [lastAt]
    wcall readN_spec hp
    rintro ⟨es, ks⟩ _ ⟨⟨rfl, hl⟩, rfl⟩
    simp only [BTree.Node.kids, BTree.Node.elems] at hl ⊢
    rw [add_zero]
    by_cases h0 : ks.length = 0
    · have : kt = [] := List.length_eq_zero_iff.1 (hl.trans h0)
      subst this
      rw [if_neg (by omega)]
      refine wp_pure ⟨?_, rfl⟩
      simp [List.getLast?_eq_getElem?]
    · have hc : kt[kt.length - 1]? = some kt[kt.length - 1] :=
        List.getElem?_eq_getElem (by omega)
      rw [if_pos (by omega), hc, ← hl]
      exact ih (sub_kid hp hc) (dep_mk.1 hn _ (List.getElem_mem _))

end

end Verif.BTreeH
