import Verif.Unwind.Fixed
/-!
# `ins_split` of a node that lacks a child

`ins_split` (core.rs:450-516) asserts that the node is full but does not look at the number of its
children.  Of a node with eleven separators and eleven children it makes two nodes, one of which
counts as a child a slot that holds none.
-/
namespace Verif.Fixed
variable {α β γ : Type}

theorem mem_none_of_getElem? {l : List (Option γ)} {i : Nat} (h : l[i]? = some none) : none ∈ l :=
  List.mem_of_getElem? h

/-- Nothing fails in `ins_split`, and a slot that counts as a child of one of the two nodes holds
none. -/
theorem split_hole {es : List (α × β)} {ks : List γ} {idx : Nat} (kv : α × β) (kid : γ)
    (hl : es.length = MAX) (hk : ks.length = MAX) (hi : idx ≤ 10) :
    ∃ x div len s les res, IVec.load MAX es = some x ∧
      splitLoop idx (some kid) kv (Splitter.new x (fill KIDS ks) true) = some (div, len, s) ∧
      IVec.unload ⟨s.dstK, s.dstV, len⟩ = some les ∧
      IVec.unload ⟨s.srcK, s.srcV, MAX - len⟩ = some res ∧
      (none ∈ s.dstN.take (len + 1) ∨ none ∈ s.srcN.take (MAX - len + 1)) := by
  obtain ⟨a0, a1, a2, a3, a4, a5, a6, a7, a8, a9, a10, rfl⟩ := list11 hl
  obtain ⟨c0, c1, c2, c3, c4, c5, c6, c7, c8, c9, c10, rfl⟩ := list11 hk
  match idx, hi with
  | 0, _ => exact ⟨_, _, _, _, _, _, rfl, rfl, rfl, rfl, .inr (mem_none_of_getElem? (i := 6) rfl)⟩
  | 1, _ => exact ⟨_, _, _, _, _, _, rfl, rfl, rfl, rfl, .inr (mem_none_of_getElem? (i := 6) rfl)⟩
  | 2, _ => exact ⟨_, _, _, _, _, _, rfl, rfl, rfl, rfl, .inr (mem_none_of_getElem? (i := 6) rfl)⟩
  | 3, _ => exact ⟨_, _, _, _, _, _, rfl, rfl, rfl, rfl, .inr (mem_none_of_getElem? (i := 6) rfl)⟩
  | 4, _ => exact ⟨_, _, _, _, _, _, rfl, rfl, rfl, rfl, .inr (mem_none_of_getElem? (i := 6) rfl)⟩
  | 5, _ => exact ⟨_, _, _, _, _, _, rfl, rfl, rfl, rfl, .inr (mem_none_of_getElem? (i := 6) rfl)⟩
  | 6, _ => exact ⟨_, _, _, _, _, _, rfl, rfl, rfl, rfl, .inr (mem_none_of_getElem? (i := 5) rfl)⟩
  | 7, _ => exact ⟨_, _, _, _, _, _, rfl, rfl, rfl, rfl, .inr (mem_none_of_getElem? (i := 5) rfl)⟩
  | 8, _ => exact ⟨_, _, _, _, _, _, rfl, rfl, rfl, rfl, .inr (mem_none_of_getElem? (i := 5) rfl)⟩
  | 9, _ => exact ⟨_, _, _, _, _, _, rfl, rfl, rfl, rfl, .inr (mem_none_of_getElem? (i := 5) rfl)⟩
  | 10, _ => exact ⟨_, _, _, _, _, _, rfl, rfl, rfl, rfl, .inr (mem_none_of_getElem? (i := 5) rfl)⟩

end Verif.Fixed
