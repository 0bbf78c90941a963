import Verif.BTree.Chk
import Verif.Lib.Serde
/-!
# Deserialization of `BTreeMap` (btree.rs:216-321, 1047-1186, 2258-2294)

`Arc::get_mut(..).unwrap()` in `stitch` is applied to nodes just built by `make_half` or
`stitch` and referenced from nowhere else, so it is the node's value here.
-/
set_option linter.unusedSectionVars false
namespace Verif.BTree
open Std Node Verif.Lib
universe u v
variable {K : Type u} {V : Type v}

/-- btree.rs:1049-1054 `InnerHalf`/`Half`: a tree with its height, and an entry above it. -/
abbrev Half (K : Type u) (V : Type v) := Option (Node K V × Nat) × K × V

/-- btree.rs:241-258 and 269-286: split an overfull root, else leave it. -/
def growRoot (N : Nat) (n : Node K V) (ht : Nat) : Option (Node K V × Nat) :=
  if n.elems.length > 2 * N + 1 then
    match split N n.elems n.kids with
    | some (.split lf kv rt) => some (.mk [kv] [lf, rt], ht + 1)
    | _ => none
  else some (n, ht)

/-- btree.rs:216-321 `Node::stitch`. -/
def stitch (N : Nat) (lf rt : Half K V) : Option (Half K V) :=
  match lf.1, rt.1 with
  | none, none => some (some (.mk [lf.2] [], 1), rt.2)
  | some (n, ht), none =>
    (growRoot N (.mk (n.elems ++ [lf.2]) n.kids) ht).map (fun x => (some x, rt.2))
  | none, some (n, ht) =>
    if ¬ n.kids.isEmpty then none -- 264
    else (growRoot N (.mk (lf.2 :: n.elems) n.kids) ht).map (fun x => (some x, rt.2))
  | some (a, lht), some (b, rht) =>
    if ¬ 0 < rht then none          -- 288
    else if ¬ rht ≤ lht then none   -- 289
    else if lht > rht then
      some (some (.mk (a.elems ++ [lf.2]) (a.kids ++ [b]), lht), rt.2)
    else if a.elems.length + 1 + b.elems.length < 2 * N + 1 then
      some (some (.mk (a.elems ++ [lf.2] ++ b.elems) (a.kids ++ b.kids), lht), rt.2)
    else if ¬ N ≤ a.elems.length then none -- 304
    else some (some (.mk [lf.2] [a, b], lht + 1), rt.2)

/-- btree.rs:1122-1147 `make_half`. -/
def makeHalf (N : Nat) (es : List (K × V)) : Option (Half K V) :=
  if ¬ (1 ≤ es.length ∧ es.length ≤ 2 * N + 2) then none
  else
    match vPop es with
    | none => none
    | some (kv, es') => if es'.isEmpty then some (none, kv) else some (some (.mk es' [], 1), kv)

/-- btree.rs:1071-1094 `check_half`.  A panic is reported as `.other`: the only caller panics
on that, too (lib.rs:440-443). -/
def checkHalf [Ord K] (N : Nat) (h : Half K V) : Chk :=
  match chkPtr (h.1.map (fun n prev => n.1.chk N prev 1)) none with
  | none => .other
  | some (.error .unsorted) => .unsorted
  | some (.error _) => .other
  | some (.ok (_, len, g)) =>
    if g.any (fun g => compare g h.2.1 != .lt) then .unsorted else .ok (len + 1)

/-- btree.rs:1149-1178 `make_whole`. -/
def makeWhole [Ord K] (N : Nat) (h : Half K V) (len : Nat) : Option (BTreeMap K V) :=
  let m : BTreeMap K V := ⟨len - 1, h.1.map (·.1)⟩ -- saturating_sub
  let m' : Option (BTreeMap K V) :=
    match m.chk N with
    | none => none
    | some (.error (.badLen n)) => some ⟨n, m.root⟩
    | some (.error _) =>
      match m.intoList Sharing.unique with
      | none => none
      | some es => BTreeMap.new.extend N es
    | some (.ok ()) => some m
  match m' with
  | none => none
  | some m => (m.insert N h.2.1 h.2.2).map (·.1)

/-- btree.rs:1056-1186 `impl Map for BTreeMap`. -/
def btreeTrait (K : Type u) (V : Type v) [Ord K] (N : Nat) :
    MapTrait K V (BTreeMap K V) (Half K V) where
  contains := BTreeMap.containsKey
  getMut := BTreeMap.getMut
  insert := BTreeMap.insert N
  new := BTreeMap.new
  maxHalfLen := 2 * N + 2
  checkHalf := checkHalf N
  makeHalf := makeHalf N
  makeWhole := makeWhole N
  stitch := stitch N

/-- btree.rs:2278-2294 `Deserialize for BTreeMap`. -/
def deserialize [Ord K] (N : Nat) (debug : Bool) (usizeMax : Nat) (hint : Option Nat)
    (es : List (K × V)) (err : Bool) : Option (Except Unit (BTreeMap K V)) :=
  (btreeTrait K V N).visitMap debug usizeMax hint es err

/-- btree.rs:2258-2276 `Serialize`: the announced length and the entries written. -/
def BTreeMap.serialize (m : BTreeMap K V) : Option (Nat × List (K × V)) :=
  m.iterList.map (fun es => (m.len, es))

/-! ### The shape of a half built from `L` entries -/

/-- Height and root population when halves of shapes `a` (left) and `b` are stitched. -/
def joinHR (N : Nat) (a b : Nat × Nat) : Nat × Nat :=
  if a.1 = b.1 then
    if a.2 + 1 + b.2 ≤ 2 * N then (a.1, a.2 + 1 + b.2) else (a.1 + 1, 1)
  else (a.1, a.2 + 1)

/-- Height and root population of the tree of a half of `L` entries. -/
def hr (N : Nat) (L : Nat) : Nat × Nat :=
  if h : L ≤ 2 * N + 2 then (1, L - 1)
  else joinHR N (hr N ((L + 1) / 2)) (hr N (L - (L + 1) / 2))
termination_by L
decreasing_by all_goals omega

theorem hr_le {N L : Nat} (h : L ≤ 2 * N + 2) : hr N L = (1, L - 1) := by rw [hr]; simp [h]
theorem hr_gt {N L : Nat} (h : 2 * N + 2 < L) :
    hr N L = joinHR N (hr N ((L + 1) / 2)) (hr N (L - (L + 1) / 2)) := by
  rw [hr, dif_neg (by omega)]

/-- How the shape changes from `L` to `L + 1` entries. -/
def StepHR (N : Nat) (a b : Nat × Nat) : Prop :=
  b = a ∨ b = (a.1, a.2 + 1) ∨ (b = (a.1 + 1, 1) ∧ N ≤ a.2)

theorem hr_step {N : Nat} (hN : 1 ≤ N) : ∀ L, 1 ≤ L → StepHR N (hr N L) (hr N (L + 1)) := by
  intro L
  induction L using Nat.strongRecOn with
  | ind L ih =>
    intro hL
    by_cases h1 : L + 1 ≤ 2 * N + 2
    · rw [hr_le (by omega), hr_le h1]
      right; left
      simp; omega
    by_cases h2 : L = 2 * N + 2
    · subst h2
      rw [hr_le (by omega), hr_gt (by omega)]
      have e1 : (2 * N + 2 + 1 + 1) / 2 = N + 2 := by omega
      have e2 : 2 * N + 2 + 1 - (N + 2) = N + 1 := by omega
      rw [e1, e2, hr_le (by omega), hr_le (by omega)]
      right; right
      simp only [joinHR, if_true]
      rw [if_neg (by omega)]
      exact ⟨rfl, by omega⟩
    rw [hr_gt (L := L) (by omega), hr_gt (L := L + 1) (by omega)]
    rcases Nat.mod_two_eq_zero_or_one L with hc | hc
    · obtain ⟨a, rfl⟩ : ∃ a, L = 2 * a := ⟨L / 2, by omega⟩
      have e1 : (2 * a + 1) / 2 = a := by omega
      have e2 : 2 * a - a = a := by omega
      have e3 : (2 * a + 1 + 1) / 2 = a + 1 := by omega
      have e4 : 2 * a + 1 - (a + 1) = a := by omega
      rw [e3, e4, e1, e2]
      have hs := ih a (by omega) (by omega)
      generalize hr N (a + 1) = y at *
      generalize hr N a = x at *
      obtain ⟨x1, x2⟩ := x
      simp only [StepHR] at hs
      rcases hs with rfl | rfl | ⟨rfl, hs⟩
      · left; rfl
      · simp only [joinHR, if_true, StepHR]
        by_cases h3 : x2 + 1 + x2 ≤ 2 * N
        · rw [if_pos h3]
          by_cases h4 : x2 + 1 + 1 + x2 ≤ 2 * N
          · rw [if_pos h4]; right; left; simp; omega
          · rw [if_neg h4]; right; right; exact ⟨rfl, by dsimp only; omega⟩
        · rw [if_neg h3, if_neg (by omega)]; left; rfl
      · simp only [joinHR, if_true, StepHR]
        rw [if_neg (by omega), if_neg (by omega)]
        right; left; rfl
    · obtain ⟨b, rfl⟩ : ∃ b, L = 2 * b + 1 := ⟨L / 2, by omega⟩
      have e1 : (2 * b + 1 + 1) / 2 = b + 1 := by omega
      have e2 : 2 * b + 1 - (b + 1) = b := by omega
      have e3 : (2 * b + 1 + 1 + 1) / 2 = b + 1 := by omega
      have e4 : 2 * b + 1 + 1 - (b + 1) = b + 1 := by omega
      rw [e3, e4, e1, e2]
      have hs := ih b (by omega) (by omega)
      generalize hr N (b + 1) = y at *
      generalize hr N b = x at *
      obtain ⟨x1, x2⟩ := x
      simp only [StepHR] at hs
      rcases hs with rfl | rfl | ⟨rfl, hs⟩
      · left; rfl
      · simp only [joinHR, if_true, StepHR]
        by_cases h3 : x2 + 1 + 1 + x2 ≤ 2 * N
        · rw [if_pos h3]
          by_cases h4 : x2 + 1 + 1 + (x2 + 1) ≤ 2 * N
          · rw [if_pos h4]; right; left; simp; omega
          · rw [if_neg h4]; right; right; exact ⟨rfl, by dsimp only; omega⟩
        · rw [if_neg h3, if_neg (by omega)]; left; rfl
      · simp only [joinHR, if_true, StepHR]
        rw [if_neg (show ¬ x1 + 1 = x1 by omega)]
        by_cases h3 : 1 + 1 + 1 ≤ 2 * N
        · rw [if_pos h3]; right; left; rfl
        · rw [if_neg h3]; right; right; exact ⟨rfl, by dsimp only; omega⟩

/-- The two halves of `L` differ by at most one step. -/
theorem hr_halves {N L : Nat} (hN : 1 ≤ N) (hL : 2 * N + 2 < L) :
    StepHR N (hr N (L - (L + 1) / 2)) (hr N ((L + 1) / 2)) := by
  rcases Nat.mod_two_eq_zero_or_one L with hc | hc
  · have : (L + 1) / 2 = L - (L + 1) / 2 := by omega
    rw [← this]; left; rfl
  · have : (L + 1) / 2 = (L - (L + 1) / 2) + 1 := by omega
    have h := hr_step hN (L - (L + 1) / 2) (by omega)
    rw [← this] at h; exact h

theorem hr_bounds {N : Nat} (hN : 1 ≤ N) : ∀ L, 1 ≤ L →
    1 ≤ (hr N L).1 ∧ (2 ≤ (hr N L).1 → 1 ≤ (hr N L).2 ∧ (hr N L).2 ≤ 2 * N) ∧
      (2 ≤ L → 1 ≤ (hr N L).2) ∧ ((hr N L).2 ≤ 2 * N + 1) ∧ (2 * N + 2 < L → 2 ≤ (hr N L).1) := by
  intro L
  induction L using Nat.strongRecOn with
  | ind L ih =>
    intro hL
    by_cases h1 : L ≤ 2 * N + 2
    · rw [hr_le h1]; simp only; omega
    · have i1 := ih ((L + 1) / 2) (by omega) (by omega)
      have i2 := ih (L - (L + 1) / 2) (by omega) (by omega)
      have hs := hr_halves hN (L := L) (by omega)
      rw [hr_gt (by omega)]
      have hx : ∀ M, M ≤ 2 * N + 2 → hr N M = (1, M - 1) := fun M hM => hr_le hM
      have ha := hx ((L + 1) / 2)
      have hb := hx (L - (L + 1) / 2)
      generalize hr N ((L + 1) / 2) = a at *
      generalize hr N (L - (L + 1) / 2) = b at *
      obtain ⟨a1, a2⟩ := a
      obtain ⟨b1, b2⟩ := b
      simp only [StepHR, Prod.mk.injEq] at *
      unfold joinHR
      dsimp only
      split
      · split
        · dsimp only
          by_cases hsm : (L + 1) / 2 ≤ 2 * N + 2
          · have := ha hsm; have := hb (by omega); omega
          · omega
        · dsimp only; omega
      · dsimp only; omega

/-! ### Correctness -/

/-- The contents of the tree of a half. -/
def halfList (t : Option (Node K V × Nat)) : List (K × V) :=
  match t with
  | none => []
  | some (n, _) => n.toList

/-- Lexicographic order of shapes. -/
def LexLe (a b : Nat × Nat) : Prop := a.1 < b.1 ∨ (a.1 = b.1 ∧ a.2 ≤ b.2)

/-- A completed half. -/
def Good (N L : Nat) (h : Half K V) (l : List (K × V)) : Prop :=
  halfList h.1 ++ [h.2] = l ∧ l.length = L ∧
    ∀ n ht, h.1 = some (n, ht) → 1 ≤ ht ∧ Node.Ok N 1 (ht - 1) n ∧ (ht, n.elems.length) = hr N L

/-- A partial half. -/
def Part (N L : Nat) (h : Half K V) (l : List (K × V)) : Prop :=
  halfList h.1 ++ [h.2] = l ∧ l.length ≤ L ∧
    ∀ n ht, h.1 = some (n, ht) → 1 ≤ ht ∧ IterOk false ht n ∧ (ht = 1 ↔ n.kids = []) ∧
      LexLe (ht, n.elems.length) (hr N L)

theorem IterOk.mono {full : Bool} : ∀ {h h' : Nat} {n : Node K V}, IterOk full h n → h ≤ h' →
    IterOk full h' n := by
  intro h
  induction h with
  | zero => intro h' n hn; exact hn.elim
  | succ h ih =>
    intro h' n hn hle
    obtain ⟨es, ks⟩ := n
    obtain ⟨h'', rfl⟩ : ∃ h'', h' = h'' + 1 := ⟨h' - 1, by omega⟩
    exact ⟨hn.1, hn.2.1, fun c hc => ih (hn.2.2 c hc) (by omega)⟩

theorem split_leaf {N : Nat} {es : List (K × V)} (hl : es.length = 2 * N + 2) :
    ∃ a kv b, split N es [] = some (.split (mk a []) kv (mk b [])) ∧ a ++ kv :: b = es ∧
      a.length = N ∧ b.length = N + 1 := by
  obtain ⟨es1, es2, rfl, h1⟩ := split_len es (N + 1) (by omega)
  obtain ⟨es0, mid, rfl⟩ := concat_of_pos es1 (by omega)
  simp only [List.length_append, List.length_cons, List.length_nil] at hl h1
  have hs : vSplitOff (N + 1) (es0 ++ [mid] ++ es2) = some (es0 ++ [mid], es2) := by
    have e1 := List.take_left' (l₁ := es0 ++ [mid]) (l₂ := es2) (i := N + 1) (by simpa using h1)
    have e2 := List.drop_left' (l₁ := es0 ++ [mid]) (l₂ := es2) (i := N + 1) (by simpa using h1)
    rw [vSplitOff, if_pos (by simp; omega), e1, e2]
  have hn : ¬ ((es0 ++ [mid] ++ es2).length ≤ 2 * N + 1) := by simp; omega
  refine ⟨es0, mid, es2, ?_, by simp, by omega, by omega⟩
  simp only [split, if_neg hn, hs, vPop_concat, List.isEmpty_nil, if_true]

theorem inter_append1 {ks1 ks2 : List (Node K V)} {es1 es2 : List (K × V)} (kv : K × V)
    (h : ks1.length = es1.length + 1) :
    inter (ks1 ++ ks2) (es1 ++ kv :: es2) = inter ks1 es1 ++ kv :: inter ks2 es2 := by
  obtain ⟨ks, c, rfl⟩ := concat_of_pos ks1 (by omega)
  have hl : ks.length = es1.length := by simpa using h
  have e1 := inter_append (ks2 := [c]) (es2 := []) hl
  rw [List.append_nil] at e1
  rw [List.append_assoc, inter_append hl, e1]
  simp [inter_cons]

theorem stitch_ss (N : Nat) (es1 es2 : List (K × V)) (ks1 ks2 : List (Node K V)) (h1 h2 : Nat)
    (kv1 kv2 : K × V) :
    stitch N (some (mk es1 ks1, h1), kv1) (some (mk es2 ks2, h2), kv2) =
      if ¬ 0 < h2 then none
      else if ¬ h2 ≤ h1 then none
      else if h1 > h2 then
        some (some (.mk (es1 ++ [kv1]) (ks1 ++ [mk es2 ks2]), h1), kv2)
      else if es1.length + 1 + es2.length < 2 * N + 1 then
        some (some (.mk (es1 ++ [kv1] ++ es2) (ks1 ++ ks2), h1), kv2)
      else if ¬ N ≤ es1.length then none
      else some (some (.mk [kv1] [mk es1 ks1, mk es2 ks2], h1 + 1), kv2) := rfl

theorem stitch_sn (N : Nat) (es1 : List (K × V)) (ks1 : List (Node K V)) (h1 : Nat)
    (kv1 kv2 : K × V) :
    stitch N (some (mk es1 ks1, h1), kv1) (none, kv2) =
      (if (es1 ++ [kv1]).length > 2 * N + 1 then
        match split N (es1 ++ [kv1]) ks1 with
        | some (.split lf kv rt) => some (.mk [kv] [lf, rt], h1 + 1)
        | _ => none
      else some (mk (es1 ++ [kv1]) ks1, h1)).map (fun x => (some x, kv2)) := rfl

/-- Facts about the two halves of a large build. -/
theorem hr_facts {N L : Nat} (hN : 1 ≤ N) (hL : 2 * N + 2 < L) :
    ∃ a1 a2 b1 b2 r1 r2, hr N ((L + 1) / 2) = (a1, a2) ∧ hr N (L - (L + 1) / 2) = (b1, b2) ∧
      hr N L = (r1, r2) ∧
      ((a1 = b1 ∧ a2 + 1 + b2 ≤ 2 * N ∧ r1 = a1 ∧ r2 = a2 + 1 + b2) ∨
        (a1 = b1 ∧ 2 * N < a2 + 1 + b2 ∧ r1 = a1 + 1 ∧ r2 = 1) ∨
        (a1 ≠ b1 ∧ r1 = a1 ∧ r2 = a2 + 1)) ∧
      ((a1 = b1 ∧ (a2 = b2 ∨ a2 = b2 + 1)) ∨ (a1 = b1 + 1 ∧ a2 = 1 ∧ N ≤ b2)) ∧
      1 ≤ b1 ∧ 1 ≤ a2 ∧ 1 ≤ b2 ∧ (2 ≤ a1 → a2 ≤ 2 * N) ∧ a2 ≤ 2 * N + 1 ∧ 2 ≤ r1 ∧ 1 ≤ r2 := by
  have hs := hr_halves hN hL
  have h1 := hr_bounds hN ((L + 1) / 2) (by omega)
  have h2 := hr_bounds hN (L - (L + 1) / 2) (by omega)
  have h3 := hr_bounds hN L (by omega)
  have h4 := hr_gt hL
  refine ⟨_, _, _, _, _, _, rfl, rfl, rfl, ?_⟩
  generalize hr N ((L + 1) / 2) = a at *
  generalize hr N (L - (L + 1) / 2) = b at *
  obtain ⟨a1, a2⟩ := a
  obtain ⟨b1, b2⟩ := b
  simp only [StepHR, Prod.mk.injEq, joinHR] at *
  split at h4
  · split at h4
    · rw [h4] at h3 ⊢; dsimp only at h3 ⊢; omega
    · rw [h4] at h3 ⊢; dsimp only at h3 ⊢; omega
  · rw [h4] at h3 ⊢; dsimp only at h3 ⊢; omega

section
variable [Ord K] [TransOrd K]

theorem Good.some {N L : Nat} {h : Half K V} {l : List (K × V)} (hg : Good N L h l) (hL : 2 ≤ L) :
    ∃ n ht, h.1 = some (n, ht) ∧ n.toList ++ [h.2] = l ∧ 1 ≤ ht ∧ Node.Ok N 1 (ht - 1) n ∧
      (ht, n.elems.length) = hr N L := by
  obtain ⟨t, kv⟩ := h
  obtain ⟨h1, h2, h3⟩ := hg
  cases t with
  | none => simp [halfList] at h1; subst h1; simp at h2; omega
  | some x => exact ⟨x.1, x.2, rfl, h1, h3 x.1 x.2 rfl⟩

theorem Good.part {N L : Nat} (hN : 1 ≤ N) {h : Half K V} {l : List (K × V)}
    (hg : Good N L h l) : Part N L h l := by
  obtain ⟨h1, h2, h3⟩ := hg
  refine ⟨h1, by omega, ?_⟩
  intro n ht he
  obtain ⟨h4, h5, h6⟩ := h3 n ht he
  refine ⟨h4, ?_, ?_, ?_⟩
  · have := h5.iterOk hN false (Nat.le_refl 1)
    rwa [Nat.sub_add_cancel h4] at this
  · obtain ⟨es, ks⟩ := n
    obtain ⟨h, rfl⟩ : ∃ h, ht = h + 1 := ⟨ht - 1, by omega⟩
    rw [Nat.add_sub_cancel] at h5
    cases h with
    | zero => have := h5.1; simp [this]
    | succ h =>
      have := h5.1
      constructor
      · intro h; omega
      · intro h; simp only [kids] at h; simp [h] at this
  · rw [← h6]; exact Or.inr ⟨rfl, Nat.le_refl _⟩

theorem part_mono {N L : Nat} (hN : 1 ≤ N) (hL : 2 * N + 2 < L) {h : Half K V} {l : List (K × V)}
    (hp : Part N ((L + 1) / 2) h l) : Part N L h l := by
  obtain ⟨h1, h2, h3⟩ := hp
  refine ⟨h1, by omega, ?_⟩
  intro n ht he
  obtain ⟨h4, h5, h6, h7⟩ := h3 n ht he
  refine ⟨h4, h5, h6, ?_⟩
  obtain ⟨a1, a2, b1, b2, r1, r2, e1, e2, e3, f⟩ := hr_facts hN hL
  rw [e1] at h7
  unfold LexLe at h7 ⊢
  rw [e3]
  dsimp only at h7 ⊢
  omega

theorem good_stitch {N L : Nat} (hN : 1 ≤ N) (hL : 2 * N + 2 < L) {h1 h2 : Half K V}
    {l1 l2 : List (K × V)} (g1 : Good N ((L + 1) / 2) h1 l1)
    (g2 : Good N (L - (L + 1) / 2) h2 l2) :
    ∃ h, stitch N h1 h2 = Option.some h ∧ Good N L h (l1 ++ l2) := by
  have hlen : (l1 ++ l2).length = L := by
    have := g1.2.1; have := g2.2.1; simp; omega
  obtain ⟨n1, ht1, t1, rfl, p1, o1, q1⟩ := g1.some (by omega)
  obtain ⟨n2, ht2, t2, rfl, p2, o2, q2⟩ := g2.some (by omega)
  obtain ⟨a1, a2, b1, b2, r1, r2, e1, e2, e3, f0, f1, f2, f3, f4, f5, f6, f7, f8⟩ :=
    hr_facts hN hL
  rw [e1] at q1
  rw [e2] at q2
  simp only [Prod.mk.injEq] at q1 q2
  obtain ⟨rfl, rfl⟩ := q1
  obtain ⟨rfl, rfl⟩ := q2
  obtain ⟨x1, kv1⟩ := h1
  obtain ⟨x2, kv2⟩ := h2
  dsimp only at t1 t2 hlen ⊢
  subst t1 t2
  obtain ⟨es1, ks1⟩ := n1
  obtain ⟨es2, ks2⟩ := n2
  rw [stitch_ss, if_neg (by omega), if_neg (by omega)]
  simp only [elems, kids] at *
  by_cases hgt : ht1 > ht2
  · rw [if_pos hgt]
    refine ⟨_, rfl, ?_, hlen, ?_⟩
    · obtain ⟨h, rfl⟩ : ∃ h, ht1 = h + 2 := ⟨ht1 - 2, by omega⟩
      obtain ⟨k1, -⟩ := o1
      have := inter_append1 (ks2 := [mk es2 ks2]) (es2 := []) kv1 k1
      simp [halfList, this, inter_cons]
    · rintro n ht ⟨⟩
      refine ⟨p1, ?_, ?_⟩
      · obtain ⟨h, rfl⟩ : ∃ h, ht1 = h + 2 := ⟨ht1 - 2, by omega⟩
        obtain ⟨k1, k2, k3, k4⟩ := o1
        have hh : ht2 - 1 = h := by omega
        rw [hh] at o2
        refine ⟨by simp [k1], by simp, by simp; omega, ?_⟩
        intro c hc
        rcases List.mem_append.1 hc with hc | hc
        · exact k4 c hc
        · simp at hc; subst hc; exact o2.mono (by simp only [elems]; omega)
      · rw [e3]; simp; omega
  · rw [if_neg hgt]
    have heq : ht1 = ht2 := by omega
    subst heq
    by_cases hm : es1.length + 1 + es2.length < 2 * N + 1
    · rw [if_pos hm]
      refine ⟨_, rfl, ?_, hlen, ?_⟩
      · simp only [halfList, toList_mk]
        have hj : inter (ks1 ++ ks2) (es1 ++ [kv1] ++ es2) =
            inter ks1 es1 ++ kv1 :: inter ks2 es2 := by
          obtain ⟨h, rfl⟩ : ∃ h, ht1 = h + 1 := ⟨ht1 - 1, by omega⟩
          rw [Nat.add_sub_cancel] at o1 o2
          cases h with
          | zero => rw [o1.1, o2.1]; simp
          | succ h => rw [List.append_assoc]; exact inter_append1 kv1 o1.1
        rw [hj]; simp
      · rintro n ht ⟨⟩
        refine ⟨p1, ?_, ?_⟩
        · obtain ⟨h, rfl⟩ : ∃ h, ht1 = h + 1 := ⟨ht1 - 1, by omega⟩
          rw [Nat.add_sub_cancel] at o1 o2 ⊢
          cases h with
          | zero => exact ⟨by rw [o1.1, o2.1]; rfl, by simp; omega, by simp; omega⟩
          | succ h =>
            obtain ⟨k1, k2, k3, k4⟩ := o1
            obtain ⟨j1, j2, j3, j4⟩ := o2
            refine ⟨by simp [k1, j1]; omega, by simp; omega, by simp; omega, ?_⟩
            intro c hc
            rcases List.mem_append.1 hc with hc | hc
            · exact k4 c hc
            · exact j4 c hc
        · rw [e3]; simp; omega
    · rw [if_neg hm, if_neg (by omega)]
      refine ⟨_, rfl, ?_, hlen, ?_⟩
      · simp [halfList, inter_cons]
      · rintro n ht ⟨⟩
        refine ⟨by omega, ?_, by rw [e3]; simp; omega⟩
        obtain ⟨h, rfl⟩ : ∃ h, ht1 = h + 1 := ⟨ht1 - 1, by omega⟩
        rw [Nat.add_sub_cancel] at o1 o2 ⊢
        refine ⟨rfl, by simp, by simp, ?_⟩
        intro c hc
        simp only [List.mem_cons, List.not_mem_nil, or_false] at hc
        rcases hc with rfl | rfl
        · exact o1.mono (by simp only [elems]; omega)
        · exact o2.mono (by simp only [elems]; omega)

theorem part_stitch {N L : Nat} (hN : 1 ≤ N) (hL : 2 * N + 2 < L) {h1 h2 : Half K V}
    {l1 l2 : List (K × V)} (g1 : Good N ((L + 1) / 2) h1 l1)
    (g2 : Part N (L - (L + 1) / 2) h2 l2) :
    ∃ h, stitch N h1 h2 = Option.some h ∧ Part N L h (l1 ++ l2) := by
  have hlen : (l1 ++ l2).length ≤ L := by
    have := g1.2.1; have := g2.2.1; simp; omega
  have gp := g1.part hN
  obtain ⟨n1, ht1, t1, rfl, p1, o1, q1⟩ := g1.some (by omega)
  obtain ⟨-, -, gp⟩ := gp
  obtain ⟨-, i1, c1, -⟩ := gp n1 ht1 t1
  obtain ⟨a1, a2, b1, b2, r1, r2, e1, e2, e3, f0, f1, f2, f3, f4, f5, f6, f7, f8⟩ :=
    hr_facts hN hL
  rw [e1] at q1
  simp only [Prod.mk.injEq] at q1
  obtain ⟨rfl, rfl⟩ := q1
  obtain ⟨x1, kv1⟩ := h1
  obtain ⟨x2, kv2⟩ := h2
  obtain ⟨rfl, -, g2⟩ := g2
  dsimp only at t1 hlen g2 ⊢
  subst t1
  obtain ⟨es1, ks1⟩ := n1
  simp only [elems, kids] at *
  have hup : LexLe (ht1, es1.length + 1) (hr N L) := by
    unfold LexLe
    rw [e3]; dsimp only; omega
  obtain ⟨h, rfl⟩ : ∃ h, ht1 = h + 1 := ⟨ht1 - 1, by omega⟩
  rw [Nat.add_sub_cancel] at o1
  cases x2 with
  | none =>
    rw [stitch_sn]
    by_cases hbig : (es1 ++ [kv1]).length > 2 * N + 1
    · rw [if_pos hbig]
      have h0 : h = 0 := by
        simp at hbig; omega
      subst h0
      obtain ⟨rfl, -, -⟩ := o1
      obtain ⟨a, kv, b, s1, s2, s3, s4⟩ := split_leaf (N := N) (es := es1 ++ [kv1]) (by
        simp at hbig ⊢; omega)
      rw [s1]
      refine ⟨_, rfl, ?_, hlen, ?_⟩
      · simp only [halfList, toList_mk, inter_nil]
        rw [← List.append_assoc, ← s2]
        simp [inter_cons]
      · rintro n ht ⟨⟩
        refine ⟨by omega, ⟨by simp, Or.inr (Or.inl rfl), ?_⟩, by simp, ?_⟩
        · intro c hc
          simp only [List.mem_cons, List.not_mem_nil, or_false] at hc
          rcases hc with rfl | rfl
          · refine ⟨?_, Or.inl rfl, by simp⟩
            rintro rfl; simp at s3; omega
          · refine ⟨?_, Or.inl rfl, by simp⟩
            rintro rfl; simp at s4
        · unfold LexLe
          rw [e3]
          simp only [elems, List.length_cons, List.length_nil]
          omega
    · rw [if_neg hbig]
      refine ⟨_, rfl, ?_, hlen, ?_⟩
      · simp only [halfList, toList_mk]
        have : inter ks1 (es1 ++ [kv1]) = inter ks1 es1 ++ [kv1] := by
          cases h with
          | zero => rw [o1.1]; simp
          | succ h =>
            have := inter_append1 (ks2 := []) (es2 := []) kv1 o1.1
            simpa using this
        rw [this]; simp
      · rintro n ht ⟨⟩
        refine ⟨p1, ⟨by simp, ?_, i1.2.2⟩, c1, by simpa using hup⟩
        cases h with
        | zero => exact Or.inl o1.1
        | succ h => right; right; exact ⟨rfl, by rw [o1.1]; simp⟩
  | some x =>
    obtain ⟨n2, ht2⟩ := x
    obtain ⟨p2, i2, c2, lx⟩ := g2 n2 ht2 rfl
    rw [e2] at lx
    obtain ⟨es2, ks2⟩ := n2
    unfold LexLe at lx
    simp only [elems, kids] at *
    rw [stitch_ss, if_neg (by omega), if_neg (by omega)]
    by_cases hgt : h + 1 > ht2
    · rw [if_pos hgt]
      obtain ⟨h', rfl⟩ : ∃ h', h = h' + 1 := ⟨h - 1, by omega⟩
      obtain ⟨k1, -⟩ := o1
      refine ⟨_, rfl, ?_, hlen, ?_⟩
      · have := inter_append1 (ks2 := [mk es2 ks2]) (es2 := []) kv1 k1
        simp [halfList, this, inter_cons]
      · rintro n ht ⟨⟩
        refine ⟨p1, ⟨by simp, Or.inr (Or.inl (by simp [k1])), ?_⟩, by simp, by simpa using hup⟩
        intro c hc
        rcases List.mem_append.1 hc with hc | hc
        · exact i1.2.2 c hc
        · simp at hc; subst hc; exact i2.mono (by omega)
    · rw [if_neg hgt]
      have heq : ht2 = h + 1 := by omega
      subst heq
      by_cases hm : es1.length + 1 + es2.length < 2 * N + 1
      · rw [if_pos hm]
        refine ⟨_, rfl, ?_, hlen, ?_⟩
        · simp only [halfList, toList_mk]
          have hj : inter (ks1 ++ ks2) (es1 ++ [kv1] ++ es2) =
              inter ks1 es1 ++ kv1 :: inter ks2 es2 := by
            cases h with
            | zero => rw [o1.1, c2.1 rfl]; simp
            | succ h => rw [List.append_assoc]; exact inter_append1 kv1 o1.1
          rw [hj]; simp
        · rintro n ht ⟨⟩
          refine ⟨p1, ⟨by simp, ?_, ?_⟩, ?_, ?_⟩
          · cases h with
            | zero => left; rw [o1.1, c2.1 rfl]; rfl
            | succ h =>
              have k1 := o1.1
              have hne : ks2 ≠ [] := fun hh => by have := c2.2 hh; omega
              rcases i2.2.1 with hh | hh | hh
              · exact absurd hh hne
              · right; left; simp [k1, hh]; omega
              · right; right; refine ⟨rfl, ?_⟩; simp [k1, hh.2]; omega
          · intro c hc
            rcases List.mem_append.1 hc with hc | hc
            · exact i1.2.2 c hc
            · exact i2.2.2 c hc
          · simp only [kids, List.append_eq_nil_iff, ← c1, ← c2, and_self]
          · unfold LexLe
            simp only [elems, List.length_append, List.length_cons, List.length_nil]
            rw [e3]; dsimp only; omega
      · rw [if_neg hm, if_neg (by omega)]
        refine ⟨_, rfl, ?_, hlen, ?_⟩
        · simp [halfList, inter_cons]
        · rintro n ht ⟨⟩
          refine ⟨by omega, ⟨by simp, Or.inr (Or.inl rfl), ?_⟩, by simp, ?_⟩
          · intro c hc
            simp only [List.mem_cons, List.not_mem_nil, or_false] at hc
            rcases hc with rfl | rfl
            · exact i1
            · exact i2
          · unfold LexLe; rw [e3]; simp; omega

theorem makeHalf_eq {N : Nat} (l : List (K × V)) (kv : K × V) (h : l.length ≤ 2 * N + 1) :
    makeHalf N (l ++ [kv]) =
      Option.some (if l.isEmpty then (none, kv) else (Option.some (.mk l [], 1), kv)) := by
  rw [makeHalf, if_neg (by simp; omega), vPop_concat]
  cases l <;> simp

theorem btree_sound {N : Nat} (hN : 1 ≤ N) :
    (btreeTrait K V N).Sound (BTreeMap.WF N) BTreeMap.abs (Good N) (Part N) where
  new_wf := BTreeMap.wf_new
  new_abs := rfl
  insert := fun m k v h => by
    obtain ⟨m', e, w, a⟩ := BTreeMap.insert_spec h k v
    exact ⟨m', _, e, w, a⟩
  max_pos := by simp [btreeTrait]
  good_len := fun L h l g => g.2.1
  part_len := fun L h l g => g.2.1
  good_leaf := by
    intro l hne hl
    simp only [btreeTrait] at hl
    obtain ⟨l, kv, rfl⟩ := concat_of_pos l (List.length_pos_iff.2 hne)
    simp only [List.length_append, List.length_cons, List.length_nil] at hl
    refine ⟨_, makeHalf_eq l kv (by omega), ?_⟩
    cases l with
    | nil => exact ⟨rfl, rfl, by simp⟩
    | cons e l =>
      refine ⟨by simp [halfList], rfl, ?_⟩
      simp only [List.isEmpty_cons, Bool.false_eq_true, if_false]
      rintro n ht ⟨⟩
      refine ⟨by omega, ⟨rfl, by simp, by omega⟩, ?_⟩
      rw [hr_le (by simp at hl ⊢; omega)]; simp
  part_leaf := by
    intro L l hne hl hL
    simp only [btreeTrait] at hL
    obtain ⟨l, kv, rfl⟩ := concat_of_pos l (List.length_pos_iff.2 hne)
    simp only [List.length_append, List.length_cons, List.length_nil] at hl
    refine ⟨_, makeHalf_eq l kv (by omega), ?_⟩
    cases l with
    | nil => exact ⟨rfl, by simp at hl ⊢; omega, by simp⟩
    | cons e l =>
      refine ⟨by simp [halfList], by simp at hl ⊢; omega, ?_⟩
      simp only [List.isEmpty_cons, Bool.false_eq_true, if_false]
      rintro n ht ⟨⟩
      refine ⟨by omega, ⟨by simp, Or.inl rfl, by simp⟩, by simp, ?_⟩
      rw [hr_le hL]
      unfold LexLe
      simp at hl ⊢; omega
  good_stitch := fun L h1 l1 h2 l2 hL g1 g2 => good_stitch hN hL g1 g2
  part_stitch := fun L h1 l1 h2 l2 hL g1 g2 => part_stitch hN hL g1 g2
  part_left := fun L h l hL g => part_mono hN hL (g.part hN)
  part_up := fun L h l hL g => part_mono hN hL g
  good_part := fun L h l g => g.part hN
  check := by
    rintro L ⟨t, kv⟩ l ⟨h1, h2, h3⟩
    simp only [btreeTrait, checkHalf]
    dsimp only at h1 h3
    cases t with
    | none =>
      left
      simp [halfList] at h1
      subst h1
      simp only [Option.map_none, chkPtr, Option.any_none]
      simpa using h2
    | some x =>
      obtain ⟨n, ht⟩ := x
      obtain ⟨p, o, -⟩ := h3 n ht rfl
      simp only [Option.map_some, chkPtr]
      rcases chk_full hN o (Or.inl rfl) none with ⟨g, hg⟩ | hg
      · rw [hg]
        simp only
        split
        · right; rfl
        · left
          congr 1
          rw [← h2, ← h1]; simp [halfList]
      · right; rw [hg]
  whole := by
    rintro L ⟨t, kv⟩ l ⟨h1, h2, h3⟩
    dsimp only at h1 h3
    have hlen : (halfList t).length ≤ L - 1 := by
      have := congrArg List.length h1; simp at this; omega
    simp only [btreeTrait, makeWhole]
    have key : ∀ m : BTreeMap K V, m.WF N → m.abs = Spec.insertAll [] (halfList t) →
        ∃ m', (m.insert N kv.1 kv.2).map (·.1) = Option.some m' ∧ m'.WF N ∧
          m'.abs = Spec.insertAll [] l := by
      intro m w a
      obtain ⟨m', e1, w1, a1⟩ := BTreeMap.insert_spec w kv.1 kv.2
      exact ⟨m', by simp [e1], w1, by rw [a1, a, ← h1, Spec.insertAll_append]; rfl⟩
    cases t with
    | none =>
      have key' := key BTreeMap.new BTreeMap.wf_new rfl
      simp only [BTreeMap.chk, Option.map_none, chkPtr]
      by_cases hc : 0 = L - 1
      · simp only [← hc, if_true]; exact key'
      · simp only [if_neg hc]; exact key'
    | some x =>
      obtain ⟨n, ht⟩ := x
      obtain ⟨p, io, -⟩ := h3 n ht rfl
      obtain ⟨r, e1, e2⟩ := chk_sound hN io none 1 (Or.inl rfl)
      simp only [halfList] at hlen key
      simp only [BTreeMap.chk, Option.map_some, chkPtr, e1]
      cases r with
      | ok x =>
        obtain ⟨ht', c, g⟩ := x
        obtain ⟨j1, j2, j3, -, rfl, -⟩ := e2 _ _ _ rfl
        have fin := key ⟨n.toList.length, Option.some n⟩ (BTreeMap.wf_some j2 j3 rfl)
          (Spec.insertAll_sorted j3).symm
        simp only
        by_cases hc : n.toList.length = L - 1
        · rw [if_pos hc]
          simp only
          rw [← hc]; exact fin
        · rw [if_neg hc]
          exact fin
      | error err =>
        have hd : BTreeMap.intoList Sharing.unique (⟨L - 1, Option.some n⟩ : BTreeMap K V) =
            Option.some n.toList := by
          have := into_drain (n := ANode.all true n) (h := ht) (len := L - 1) (fuel := L - 1 + 1)
            (by rw [ANode.forget_all]; exact io) (by rw [ANode.forget_all]; exact hlen)
            (by rw [ANode.forget_all]; omega)
          rw [ANode.forget_all] at this
          exact this
        have hnb : ∀ c, err ≠ .badLen c := by
          rintro c rfl
          exact chk_ne N 1 n none c e1
        obtain ⟨m, e3, w3, a3⟩ := BTreeMap.extend_spec (N := N) BTreeMap.wf_new n.toList
        cases err with
        | badLen c => exact absurd rfl (hnb c)
        | _ =>
          simp only [hd, e3]
          exact key m w3 a3

end
end Verif.BTree
