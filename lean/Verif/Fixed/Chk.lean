import Verif.Fixed.Spec
import Verif.BTree.Chk
/-!
# Invariant checking of the fixed-layout B-tree (core.rs:734-784, fixed.rs:135-146)

A failing assertion is `none`.
-/
set_option linter.unusedSectionVars false
namespace Verif.Fixed
open Std Verif.BTree Verif.BTree.Node
variable {K V : Type}

/-- Result of `chk_aux`: greatest key, height, length. -/
abbrev ChkRes (K : Type) := Option (Option K × Nat × Nat)

/-- core.rs:766-781, the loop over the elements from index `i`; `fs` are the checks of the
children.  Yields the greatest key and the length. -/
def chkLoop [Ord K] (fs : List (Option K → ChkRes K)) (ht : Nat) :
    Nat → List (K × V) → Option K → Nat → Option (Option K × Nat)
  | _, [], g, len => some (g, len)
  | i, e :: es, g, len =>
    if g.any (fun g => compare g e.1 != .lt) then none
    else
      match fs[i + 1]? with
      | none => chkLoop fs ht (i + 1) es (some e.1) (len + 1)
      | some f =>
        match f (some e.1) with
        | none => none
        | some (g, h, l) => if h ≠ ht then none else chkLoop fs ht (i + 1) es g (len + 1 + l)

/-- core.rs:741-784 `chk_aux` without the recursion. -/
def chkBody [Ord K] (es : List (K × V)) (fs : List (Option K → ChkRes K)) (g : Option K)
    (minLen : Nat) : ChkRes K :=
  if ¬ es.length ≥ minLen then none
  else if ¬ es.length ≤ 2 * MIN + 1 then none
  else if ¬ (fs = [] ∨ fs.length = es.length + 1) then none
  else
    match fs[0]? with
    | none => (chkLoop fs 0 0 es g 0).map (fun x => (x.1, 0 + 1, x.2))
    | some f =>
      match f g with
      | none => none
      | some (g, h, l) => (chkLoop fs h 0 es g l).map (fun x => (x.1, h + 1, x.2))

mutual
/-- core.rs:741-784 `chk_aux`. -/
def chkAux [Ord K] : Node K V → Option K → Nat → ChkRes K
  | .mk es ks => chkBody es (chkFns ks)
/-- The checks of the children, always called with `MIN_OCCUPANCY`. -/
def chkFns [Ord K] : List (Node K V) → List (Option K → ChkRes K)
  | [] => []
  | c :: ks => (fun g => chkAux c g MIN) :: chkFns ks
end

/-- core.rs:734-739 `chk`. -/
def nodeChk [Ord K] (n : Node K V) : Option Nat := (chkAux n none 1).map (·.2.2)

/-- fixed.rs:135-146 `chk`: whether all assertions hold. -/
def FMap.chk [Ord K] (m : FMap K V) : Bool :=
  match m.root with
  | some n => nodeChk n == some m.len
  | none => m.len == 0

theorem chkFns_eq [Ord K] (ks : List (Node K V)) :
    chkFns ks = ks.map (fun c g => chkAux c g MIN) := by
  induction ks with
  | nil => simp [chkFns]
  | cons c ks ih => simp [chkFns, ih]

section
variable [Ord K] [TransOrd K]

theorem any_lt {g : Option K} {k : K} :
    g.any (fun g => compare g k != .lt) = true ↔ ¬ ∀ p, g = some p → compare p k = .lt := by
  cases g <;> simp

theorem above_cons {g : Option K} {e : K × V} {l : List (K × V)} :
    Above g (e :: l) ↔ (∀ p, g = some p → compare p e.1 = .lt) ∧ Above g l := by
  constructor
  · intro h
    exact ⟨fun p hp => h p hp e (by simp), fun p hp x hx => h p hp x (by simp [hx])⟩
  · rintro ⟨h1, h2⟩ p hp x hx
    rcases List.mem_cons.1 hx with rfl | hx
    · exact h1 p hp
    · exact h2 p hp x hx

theorem above_append {g : Option K} {l1 l2 : List (K × V)} :
    Above g (l1 ++ l2) ↔ Above g l1 ∧ Above g l2 := by
  constructor
  · intro h
    exact ⟨fun p hp x hx => h p hp x (by simp [hx]), fun p hp x hx => h p hp x (by simp [hx])⟩
  · rintro ⟨h1, h2⟩ p hp x hx
    rcases List.mem_append.1 hx with hx | hx
    · exact h1 p hp x hx
    · exact h2 p hp x hx

theorem lastKey_append (g : Option K) (l1 l2 : List (K × V)) :
    lastKey g (l1 ++ l2) = lastKey (lastKey g l1) l2 := by
  rcases List.eq_nil_or_concat l2 with rfl | ⟨l, x, rfl⟩
  · simp [lastKey]
  · simp only [List.concat_eq_append, ← List.append_assoc]
    simp [lastKey]

/-- Sorted lists in a row, each above the last key so far. -/
theorem sorted_above_append {g : Option K} {l1 l2 : List (K × V)} :
    (Sorted (l1 ++ l2) ∧ Above g (l1 ++ l2)) ↔
      (Sorted l1 ∧ Above g l1) ∧ Sorted l2 ∧ Above (lastKey g l1) l2 := by
  rw [sorted_append, above_append]
  constructor
  · rintro ⟨⟨h1, h2, h3⟩, h4, h5⟩
    refine ⟨⟨h1, h4⟩, h2, ?_⟩
    rcases List.eq_nil_or_concat l1 with rfl | ⟨l, x, rfl⟩
    · simpa [lastKey] using h5
    · intro p hp y hy
      have : p = x.1 := by simpa [lastKey, eq_comm] using hp
      subst this
      exact h3 x (by simp) y hy
  · rintro ⟨⟨h1, h4⟩, h2, h5⟩
    rcases List.eq_nil_or_concat l1 with rfl | ⟨l, x, rfl⟩
    · exact ⟨⟨h1, h2, by simp⟩, h4, by simpa [lastKey] using h5⟩
    · have h6 : ∀ y ∈ l2, compare x.1 y.1 = .lt := fun y hy => h5 x.1 (by simp [lastKey]) y hy
      simp only [List.concat_eq_append] at *
      refine ⟨⟨h1, h2, ?_⟩, h4, ?_⟩
      · intro a ha y hy
        rcases List.mem_append.1 ha with ha | ha
        · exact TransCmp.lt_trans ((sorted_append.1 h1).2.2 a ha x (by simp)) (h6 y hy)
        · simp at ha; subst ha; exact h6 y hy
      · intro p hp y hy
        exact TransCmp.lt_trans (h4 p hp x (by simp)) (h6 y hy)

theorem sorted_above_one {g : Option K} {e : K × V} :
    (Sorted [e] ∧ Above g [e]) ↔ ∀ p, g = some p → compare p e.1 = .lt := by
  simp [Sorted, Above]

/-- What a successful check of a child tells. -/
def KidIff (c : Node K V) : Prop := ∀ g g' ht len, chkAux c g MIN = some (g', ht, len) ↔
  1 ≤ ht ∧ Ok MIN MIN (ht - 1) c ∧ (Sorted c.toList ∧ Above g c.toList) ∧
    g' = lastKey g c.toList ∧ len = c.toList.length

theorem chkLoop_leaf (es : List (K × V)) : ∀ (i : Nat) (g g' : Option K) (len len' : Nat),
    chkLoop [] 0 i es g len = some (g', len') ↔
      (Sorted es ∧ Above g es) ∧ g' = lastKey g es ∧ len' = len + es.length := by
  induction es with
  | nil => intro i g g' len len'; simp [chkLoop, Sorted, Above, lastKey, eq_comm]
  | cons e es ih =>
    intro i g g' len len'
    have h1 := sorted_above_append (g := g) (l1 := [e]) (l2 := es)
    have h2 := lastKey_append g [e] es
    rw [sorted_above_one] at h1
    simp only [List.singleton_append, show lastKey g [e] = some e.1 by simp [lastKey]] at h1 h2
    rw [chkLoop]
    by_cases ha : g.any (fun g => compare g e.1 != .lt) = true
    · rw [if_pos ha]
      rw [any_lt] at ha
      rw [h1]
      simp only [reduceCtorEq, false_iff]
      exact fun h => ha h.1.1
    · rw [if_neg ha]
      rw [any_lt, Decidable.not_not] at ha
      simp only [List.getElem?_nil]
      rw [ih, h1, h2, List.length_cons]
      constructor
      · rintro ⟨a, b, c⟩; exact ⟨⟨ha, a⟩, b, by omega⟩
      · rintro ⟨⟨-, a⟩, b, c⟩; exact ⟨a, b, by omega⟩

theorem chkLoop_branch {ks : List (Node K V)} {ht : Nat} (hk : ∀ c ∈ ks, KidIff c) :
    ∀ (es : List (K × V)) (i : Nat) (g g' : Option K) (len len' : Nat) (rest : List (Node K V)),
    ks.drop (i + 1) = rest → rest.length = es.length →
    (chkLoop (chkFns ks) ht i es g len = some (g', len') ↔
      (∀ c ∈ rest, 1 ≤ ht ∧ Ok MIN MIN (ht - 1) c) ∧
      (Sorted (post es rest) ∧ Above g (post es rest)) ∧ g' = lastKey g (post es rest) ∧
      len' = len + (post es rest).length) := by
  intro es
  induction es with
  | nil =>
    intro i g g' len len' rest hr hl
    have : rest = [] := by simpa using hl
    subst this
    simp [chkLoop, Sorted, Above, lastKey, eq_comm]
  | cons e es ih =>
    intro i g g' len len' rest hr hl
    cases rest with
    | nil => simp at hl
    | cons c rest =>
    have hi : i + 1 < ks.length := by
      rcases Nat.lt_or_ge (i + 1) ks.length with h | h
      · exact h
      · rw [List.drop_eq_nil_of_le h] at hr; simp at hr
    rw [List.drop_eq_getElem_cons hi] at hr
    obtain ⟨hc, hr⟩ := List.cons.inj hr
    have hget : (chkFns ks)[i + 1]? = some (fun g => chkAux c g MIN) := by
      rw [chkFns_eq]; simp [List.getElem?_eq_getElem hi, hc]
    have hcm : c ∈ ks := hc ▸ List.getElem_mem hi
    have hp : post (e :: es) (c :: rest) = [e] ++ (c.toList ++ post es rest) := by
      rw [post_cons, inter_cons]; simp
    have h0 : lastKey g [e] = some e.1 := by simp [lastKey]
    have h1 : (Sorted ([e] ++ (c.toList ++ post es rest)) ∧ Above g ([e] ++ (c.toList ++ post es rest))) ↔
        (∀ p, g = some p → compare p e.1 = .lt) ∧ (Sorted c.toList ∧ Above (some e.1) c.toList) ∧
          Sorted (post es rest) ∧ Above (lastKey (some e.1) c.toList) (post es rest) := by
      rw [sorted_above_append, sorted_above_one, h0, sorted_above_append]
    have h2 : lastKey g (post (e :: es) (c :: rest)) =
        lastKey (lastKey (some e.1) c.toList) (post es rest) := by
      rw [hp, lastKey_append, lastKey_append]; simp [lastKey]
    have h3 : (post (e :: es) (c :: rest)).length = 1 + c.toList.length + (post es rest).length := by
      rw [hp]; simp; omega
    rw [← hp] at h1
    rw [h1, h2, h3, chkLoop]
    by_cases ha : g.any (fun g => compare g e.1 != .lt) = true
    · rw [if_pos ha]
      rw [any_lt] at ha
      simp only [reduceCtorEq, false_iff]
      exact fun h => ha h.2.1.1
    rw [if_neg ha]
    rw [any_lt, Decidable.not_not] at ha
    rw [hget]
    simp only
    have hki := hk c hcm (some e.1)
    cases hcc : chkAux c (some e.1) MIN with
    | none =>
      simp only [reduceCtorEq, false_iff]
      rintro ⟨k1, ⟨-, k2, -⟩, -, -⟩
      have := (hki (lastKey (some e.1) c.toList) ht c.toList.length).2
        ⟨(k1 c (by simp)).1, (k1 c (by simp)).2, k2, rfl, rfl⟩
      rw [hcc] at this
      cases this
    | some x =>
      obtain ⟨gc, hh, lc⟩ := x
      obtain ⟨k1, k2, k3, rfl, rfl⟩ := (hki _ _ _).1 hcc
      simp only
      by_cases hht : hh = ht
      · subst hht
        simp only [ne_eq, not_true_eq_false, if_false]
        rw [ih (i + 1) _ g' _ len' rest hr (by simpa using hl)]
        constructor
        · rintro ⟨a, b, c', d⟩
          refine ⟨?_, ⟨ha, k3, b⟩, c', by omega⟩
          intro x hx
          rcases List.mem_cons.1 hx with rfl | hx
          · exact ⟨k1, k2⟩
          · exact a x hx
        · rintro ⟨a, ⟨-, -, b⟩, c', d⟩
          exact ⟨fun x hx => a x (by simp [hx]), b, c', by omega⟩
      · rw [if_pos hht]
        simp only [reduceCtorEq, false_iff]
        rintro ⟨a, ⟨-, k4, -⟩, -, -⟩
        have := (hki (lastKey (some e.1) c.toList) ht c.toList.length).2
          ⟨(a c (by simp)).1, (a c (by simp)).2, k4, rfl, rfl⟩
        rw [hcc] at this
        simp only [Option.some.injEq, Prod.mk.injEq] at this
        exact hht this.2.1

/-- `chk_aux` succeeds exactly on the valid nodes. -/
theorem chkAux_iff' (lo : Nat) (hlo : 1 ≤ lo) (es : List (K × V)) (ks : List (Node K V))
    (hk : ∀ c ∈ ks, KidIff c) (g g' : Option K) (ht len : Nat) :
    chkAux (.mk es ks) g lo = some (g', ht, len) ↔
      1 ≤ ht ∧ Ok MIN lo (ht - 1) (.mk es ks) ∧
        (Sorted (toList (.mk es ks)) ∧ Above g (toList (.mk es ks))) ∧
        g' = lastKey g (toList (.mk es ks)) ∧ len = (toList (.mk es ks)).length := by
  rw [chkAux, chkBody, toList_mk]
  have hfl : (chkFns ks).length = ks.length := by rw [chkFns_eq]; simp
  have hok : Ok MIN lo (ht - 1) (.mk es ks) → lo ≤ es.length ∧ es.length ≤ 2 * MIN + 1 ∧
      (ks = [] ∨ ks.length = es.length + 1) := by
    cases ht - 1 with
    | zero => rintro ⟨a, b, c⟩; exact ⟨b, c, .inl a⟩
    | succ h => rintro ⟨a, b, c, -⟩; exact ⟨b, c, .inr a⟩
  by_cases h1 : ¬ (es.length ≥ lo)
  · rw [if_pos h1]
    simp only [reduceCtorEq, false_iff]
    exact fun h => h1 (hok h.2.1).1
  rw [if_neg h1]
  have h1 := Decidable.not_not.1 h1
  by_cases h2 : ¬ (es.length ≤ 2 * MIN + 1)
  · rw [if_pos h2]
    simp only [reduceCtorEq, false_iff]
    exact fun h => h2 (hok h.2.1).2.1
  rw [if_neg h2]
  have h2 := Decidable.not_not.1 h2
  have hnil : chkFns ks = [] ↔ ks = [] := by
    rw [← List.length_eq_zero_iff, hfl, List.length_eq_zero_iff]
  have h4 : ¬ (chkFns ks = [] ∨ (chkFns ks).length = es.length + 1) ↔
      ¬ (ks = [] ∨ ks.length = es.length + 1) := by rw [hnil, hfl]
  by_cases h3 : ¬ (ks = [] ∨ ks.length = es.length + 1)
  · rw [if_pos (h4.2 h3)]
    simp only [reduceCtorEq, false_iff]
    exact fun h => h3 (hok h.2.1).2.2
  rw [if_neg (fun h => h3 (h4.1 h))]
  clear h4
  have h3 := Decidable.not_not.1 h3
  cases ks with
  | nil =>
    simp only [chkFns, List.getElem?_nil, Option.map_eq_some_iff, Prod.mk.injEq, inter_nil]
    constructor
    · rintro ⟨⟨a, b⟩, e, rfl, rfl, rfl⟩
      obtain ⟨x, y, z⟩ := (chkLoop_leaf es 0 g a 0 b).1 e
      exact ⟨by omega, ⟨rfl, h1, h2⟩, x, y, by simpa using z⟩
    · rintro ⟨a, b, c, rfl, rfl⟩
      refine ⟨(lastKey g es, es.length), (chkLoop_leaf es 0 g _ 0 _).2 ⟨c, rfl, by omega⟩, rfl, ?_, rfl⟩
      cases hh : ht - 1 with
      | zero => omega
      | succ h => rw [hh] at b; simp [Ok] at b
  | cons c0 ks =>
    have hlen : ks.length = es.length := by simpa using h3
    have hget : (chkFns (c0 :: ks))[0]? = some (fun g => chkAux c0 g MIN) := by
      rw [chkFns_eq]; simp
    rw [hget, inter_cons, sorted_above_append, lastKey_append, List.length_append]
    simp only
    have hki := hk c0 (by simp) g
    have hOk : ∀ h, 1 ≤ h → (Ok MIN lo h (.mk es (c0 :: ks)) ↔
        Ok MIN MIN (h - 1) c0 ∧ ∀ c ∈ ks, Ok MIN MIN (h - 1) c) := by
      intro h hh
      obtain ⟨h, rfl⟩ : ∃ k, h = k + 1 := ⟨h - 1, by omega⟩
      simp only [Ok, List.length_cons, hlen, true_and, h1, h2, List.mem_cons, forall_eq_or_imp,
        Nat.add_sub_cancel]
    have hOk0 : ¬ Ok MIN lo 0 (.mk es (c0 :: ks)) := by simp [Ok]
    cases hcc : chkAux c0 g MIN with
    | none =>
      simp only [reduceCtorEq, false_iff]
      rintro ⟨a, b, ⟨k2, -⟩, -, -⟩
      have h4 : 1 ≤ ht - 1 := by
        rcases Nat.eq_zero_or_pos (ht - 1) with h | h
        · rw [h] at b; exact absurd b hOk0
        · exact h
      have := (hki (lastKey g c0.toList) (ht - 1) c0.toList.length).2
        ⟨h4, ((hOk _ h4).1 b).1, k2, rfl, rfl⟩
      rw [hcc] at this
      cases this
    | some x =>
      obtain ⟨gc, hh, lc⟩ := x
      obtain ⟨k1, k2, k3, rfl, rfl⟩ := (hki _ _ _).1 hcc
      simp only [Option.map_eq_some_iff, Prod.mk.injEq]
      constructor
      · rintro ⟨⟨a, b⟩, e, rfl, rfl, rfl⟩
        obtain ⟨x, y, z, w⟩ := (chkLoop_branch hk es 0 _ a _ b ks (by simp) hlen).1 e
        refine ⟨by omega, ?_, ⟨k3, y⟩, z, w⟩
        rw [Nat.add_sub_cancel, hOk hh k1]
        exact ⟨k2, fun c hc => (x c hc).2⟩
      · rintro ⟨a, b, ⟨-, c⟩, rfl, rfl⟩
        have h4 : 1 ≤ ht - 1 := by
          rcases Nat.eq_zero_or_pos (ht - 1) with h | h
          · rw [h] at b; exact absurd b hOk0
          · exact h
        obtain ⟨b1, b2⟩ := (hOk _ h4).1 b
        have : hh = ht - 1 := by
          have := (hki (lastKey g c0.toList) (ht - 1) c0.toList.length).2 ⟨h4, b1, k3, rfl, rfl⟩
          rw [hcc] at this
          simp only [Option.some.injEq, Prod.mk.injEq] at this
          exact this.2.1
        refine ⟨(_, _), (chkLoop_branch hk es 0 _ _ _ _ ks (by simp) hlen).2
          ⟨fun x hx => ⟨k1, by rw [this]; exact b2 x hx⟩, c, rfl, rfl⟩, rfl, by omega, rfl⟩

mutual
theorem kidIff : ∀ c : Node K V, KidIff c
  | .mk es ks => fun g g' ht len => chkAux_iff' MIN (by omega) es ks (kidIffs ks) g g' ht len
theorem kidIffs : ∀ ks : List (Node K V), ∀ c ∈ ks, KidIff c
  | [], _, h => by simp at h
  | d :: ks, c, h => by
    rcases List.mem_cons.1 h with h | h
    · exact h ▸ kidIff d
    · exact kidIffs ks c h
end

/-- `chk` accepts exactly the valid maps. -/
theorem FMap.chk_iff (m : FMap K V) : m.chk = true ↔ m.WF := by
  obtain ⟨root, len⟩ := m
  cases root with
  | none =>
    simp only [FMap.chk, beq_iff_eq]
    constructor
    · rintro rfl; exact ⟨by simp [FMap.toList, Sorted], rfl, by simp⟩
    · intro h; simpa [FMap.toList] using h.len
  | some n =>
    obtain ⟨es, ks⟩ := n
    simp only [FMap.chk, beq_iff_eq, nodeChk, Option.map_eq_some_iff]
    constructor
    · rintro ⟨⟨g, ht, l⟩, e, rfl⟩
      obtain ⟨a, b, c, -, d⟩ := (chkAux_iff' 1 (by omega) es ks (kidIffs ks) _ _ _ _).1 e
      exact ⟨c.1, d, by rintro _ ⟨⟩; exact ⟨_, b⟩⟩
    · intro h
      obtain ⟨hh, hs⟩ := h.shape _ rfl
      exact ⟨(_, hh + 1, len), (chkAux_iff' 1 (by omega) es ks (kidIffs ks) _ _ _ _).2
        ⟨by omega, by simpa using hs, ⟨h.sorted, by simp [Above]⟩, rfl, h.len⟩, rfl⟩

end
end Verif.Fixed
