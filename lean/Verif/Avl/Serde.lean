import Verif.Avl.Map
import Verif.Lib.Serde
/-!
# Deserialization of `AvlMap` (avl.rs:2310-2434), entry API instance
-/
set_option linter.unusedSectionVars false
namespace Verif.Avl
open Tree Verif.Lib
variable {K V : Type _}

/-- avl.rs:19-25 `MapErr`. -/
inductive MapErr where
  | badHeight | badLen (n : Nat) | imbalanced | unsorted
  deriving DecidableEq, Repr

/-- avl.rs:155-183 `Node::chk` / 328-336 `chk`, with the kind of error. -/
def Tree.chkE [Ord K] : Tree K V → Option K → Except MapErr (Nat × Option K)
  | nil, g => .ok (0, g)
  | node k _ lh rh l r, g =>
    if g.any (fun g => compare g k != .lt) then .error .unsorted
    else if height l != lh || height r != rh then .error .badHeight
    else if !isBal (rh - lh) then .error .imbalanced
    else
      match chkE l g with
      | .error e => .error e
      | .ok (nl, g1) =>
        if g1.any (fun g => compare g k != .lt) then .error .unsorted
        else
          match chkE r (some k) with
          | .error e => .error e
          | .ok (nr, g2) => .ok (nl + nr + 1, g2)

/-- avl.rs:2310-2312 `Half`: a tree and an entry above it. -/
abbrev Half (K V : Type _) := Tree K V × K × V

/-- avl.rs:2330-2347 `check_half`. -/
def checkHalf [Ord K] (h : Half K V) : Chk :=
  match chkE h.1 none with
  | .ok (n, g) => if g.any (fun g => compare g h.2.1 != .lt) then .unsorted else .ok (n + 1)
  | .error .unsorted => .unsorted
  | .error _ => .other

/-- avl.rs:2378-2392 `make_half`; other lengths fail the `assert!`. -/
def makeHalf : List (K × V) → Option (Half K V)
  | [e] => some (nil, e.1, e.2)
  | [e0, e1] => some (mk e0.1 e0.2 nil nil, e1.1, e1.2)
  | _ => none

/-- avl.rs:2394-2422 `make_whole`. -/
def makeWhole [Ord K] (h : Half K V) (len : Nat) : Option (AvlMap K V) :=
  let len := len - 1 -- saturating_sub
  let m : Option (AvlMap K V) :=
    match chkE h.1 none with
    | .ok (n, _) => if n = len then some ⟨len, h.1⟩ else some ⟨n, h.1⟩
    | .error _ =>
      match drain (h.1.size + 1) (iterOf len h.1) with
      | none => none
      | some es => AvlMap.new.extend es
  match m with
  | none => none
  | some m => (m.insert h.2.1 h.2.2).map (·.1)

/-- avl.rs:2424-2433 `stitch`. -/
def stitch (lf rt : Half K V) : Half K V := (mk lf.2.1 lf.2.2 lf.1 rt.1, rt.2.1, rt.2.2)

/-- avl.rs:2314-2434 `impl Map for AvlMap`. -/
def avlTrait (K V : Type _) [Ord K] : MapTrait K V (AvlMap K V) (Half K V) where
  contains := AvlMap.containsKey
  getMut := AvlMap.getMut
  insert := AvlMap.insert
  new := AvlMap.new
  maxHalfLen := 2
  checkHalf := checkHalf
  makeHalf := makeHalf
  makeWhole := makeWhole
  stitch := fun a b => some (stitch a b)

/-- avl.rs:2455-2471 `Deserialize for AvlMap`. -/
def deserialize [Ord K] (debug : Bool) (usizeMax : Nat) (hint : Option Nat) (es : List (K × V))
    (err : Bool) : Option (Except Unit (AvlMap K V)) :=
  (avlTrait K V).visitMap debug usizeMax hint es err

/-- avl.rs:2442-2452 `Serialize`: the announced length and the entries written. -/
def AvlMap.serialize (m : AvlMap K V) : Option (Nat × List (K × V)) :=
  (drain (m.root.size + 1) m.iter).map (fun es => (m.len, es))

/-! ### Correctness -/

theorem chkE_ok [Ord K] : ∀ (t : Tree K V) (g : Option K) (x : Nat × Option K),
    chkE t g = .ok x ↔ chk t g = some x := by
  intro t
  induction t with
  | nil => intro g x; simp [chkE, chk]
  | node k v lh rh l r ihl ihr =>
    intro g x
    unfold chkE chk
    split
    · simp
    · split
      · simp
      · split
        · simp
        · cases hl : chkE l g with
          | error e =>
            have : chk l g = none := by
              cases hc : chk l g with
              | none => rfl
              | some y => have := (ihl g y).2 hc; simp [hl] at this
            simp [this]
          | ok y =>
            have hy := (ihl g y).1 hl
            obtain ⟨nl, g1⟩ := y
            simp only [hy]
            split
            · simp
            · cases hr : chkE r (some k) with
              | error e =>
                have : chk r (some k) = none := by
                  cases hc : chk r (some k) with
                  | none => rfl
                  | some y => have := (ihr (some k) y).2 hc; simp [hr] at this
                simp [this]
              | ok z =>
                have hz := (ihr (some k) z).1 hr
                obtain ⟨nr, g2⟩ := z
                simp [hz]

/-- On a balanced tree the only possible complaint is about the order. -/
theorem chkE_bal [Ord K] : ∀ (t : Tree K V) (g : Option K), Bal t →
    (∃ g', chkE t g = .ok (t.size, g')) ∨ chkE t g = .error .unsorted := by
  intro t
  induction t with
  | nil => intro g _; left; exact ⟨g, rfl⟩
  | node k v lh rh l r ihl ihr =>
    rintro g ⟨h1, h2, h3, h4, bl, br⟩
    unfold chkE
    split
    · right; rfl
    · rw [if_neg (by simp [h1, h2]), if_neg (by simp [isBal_iff, h3, h4])]
      rcases ihl g bl with ⟨g1, e1⟩ | e1
      · simp only [e1]
        split
        · right; rfl
        · rcases ihr (some k) br with ⟨g2, e2⟩ | e2
          · simp only [e2]; left; exact ⟨g2, by simp [size]; omega⟩
          · simp [e2]
      · simp [e1]

/-- Height of a completed half of `L` entries. -/
def htOf (L : Nat) : Int := if h : L ≤ 1 then 0 else htOf ((L + 1) / 2) + 1
termination_by L
decreasing_by omega

theorem htOf_le {L : Nat} (h : L ≤ 1) : htOf L = 0 := by rw [htOf]; simp [h]
theorem htOf_gt {L : Nat} (h : 1 < L) : htOf L = htOf ((L + 1) / 2) + 1 := by
  rw [htOf]; simp; omega

theorem htOf_step : ∀ L : Nat, htOf L ≤ htOf (L + 1) ∧ htOf (L + 1) ≤ htOf L + 1 := by
  intro L
  induction L using Nat.strongRecOn with
  | ind L ih =>
    by_cases h0 : L = 0
    · subst h0; simp [htOf_le]
    by_cases h1 : L = 1
    · subst h1; rw [htOf_gt (L := 2) (by omega)]; simp [htOf_le]
    rw [htOf_gt (L := L + 1) (by omega), htOf_gt (L := L) (by omega)]
    have := ih ((L + 1) / 2) (by omega)
    rcases Nat.mod_two_eq_zero_or_one L with hc | hc
    · have e1 : (L + 1 + 1) / 2 = (L + 1) / 2 + 1 := by omega
      rw [e1]; omega
    · have e1 : (L + 1 + 1) / 2 = (L + 1) / 2 := by omega
      rw [e1]; omega

section
open Std
variable [Ord K] [TransOrd K]

/-- A completed half. -/
def Good (L : Nat) (h : Half K V) (l : List (K × V)) : Prop :=
  Bal h.1 ∧ height h.1 = htOf L ∧ h.1.toList ++ [h.2] = l ∧ l.length = L ∧ 1 ≤ L

/-- A partial half. -/
def Part (L : Nat) (h : Half K V) (l : List (K × V)) : Prop :=
  h.1.toList ++ [h.2] = l ∧ l.length ≤ L

theorem avl_sound : (avlTrait K V).Sound AvlMap.WF AvlMap.abs Good Part where
  new_wf := AvlMap.wf_new
  new_abs := rfl
  insert := fun m k v h => by
    obtain ⟨m', e, w, a⟩ := AvlMap.insert_spec h k v
    exact ⟨m', _, e, w, a⟩
  max_pos := by simp [avlTrait]
  good_len := fun L h l g => g.2.2.2.1
  part_len := fun L h l g => g.2
  good_leaf := by
    intro l hne hl
    match l, hne, hl with
    | [e], _, _ =>
      exact ⟨_, rfl, trivial, by simp [htOf_le], by simp, by simp, by simp⟩
    | [e0, e1], _, _ =>
      refine ⟨_, rfl, by simp [mk, Bal], ?_, by simp [mk, toList], by simp, by simp⟩
      rw [List.length_cons, List.length_cons, List.length_nil, htOf_gt (by omega)]
      simp [mk, htOf_le]
    | _ :: _ :: _ :: _, _, h => simp [avlTrait] at h
  part_leaf := by
    intro L l hne hl hL
    match l, hne, hl with
    | [e], _, hl => exact ⟨_, rfl, by simp, by simp at hl ⊢; omega⟩
    | _ :: _ :: _, _, h => simp [avlTrait] at h hL; omega
  good_stitch := by
    rintro L ⟨t1, kv1⟩ l1 ⟨t2, kv2⟩ l2 hL ⟨b1, ht1, e1, n1, _⟩ ⟨b2, ht2, e2, n2, _⟩
    refine ⟨_, rfl, ?_⟩
    simp only [avlTrait] at hL
    have hs : htOf (L - (L + 1) / 2) ≤ htOf ((L + 1) / 2) ∧
        htOf ((L + 1) / 2) ≤ htOf (L - (L + 1) / 2) + 1 := by
      by_cases he : L - (L + 1) / 2 = (L + 1) / 2
      · rw [he]; omega
      · have : (L + 1) / 2 = (L - (L + 1) / 2) + 1 := by omega
        have h := htOf_step (L - (L + 1) / 2)
        rw [← this] at h; exact h
    dsimp only at b1 b2 ht1 ht2 e1 e2
    refine ⟨⟨rfl, rfl, by dsimp only; omega, by dsimp only; omega, b1, b2⟩, ?_, ?_, ?_, by omega⟩
    · simp only [stitch, mk, height_node]
      rw [htOf_gt (L := L) (by omega)]; omega
    · simp only [stitch, mk, toList, ← e1, ← e2]; simp
    · simp [n1, n2]; omega
  part_stitch := by
    rintro L ⟨t1, kv1⟩ l1 ⟨t2, kv2⟩ l2 hL ⟨b1, ht1, e1, n1, _⟩ ⟨e2, n2⟩
    refine ⟨_, rfl, ?_, ?_⟩
    · dsimp only at e1 e2
      simp only [stitch, mk, toList, ← e1, ← e2]; simp
    · simp only [List.length_append]; omega
  part_left := fun L h l hL g => ⟨g.2.2.1, by have := g.2.2.2.1; omega⟩
  part_up := fun L h l hL g => ⟨g.1, by have := g.2; simp [avlTrait] at hL; omega⟩
  good_part := fun L h l g => ⟨g.2.2.1, by have := g.2.2.2.1; omega⟩
  check := by
    rintro L ⟨t, kv⟩ l ⟨b, ht, e, n, hL⟩
    simp only [avlTrait, checkHalf]
    rcases chkE_bal t none b with ⟨g', h⟩ | h
    · simp only [h]
      split
      · right; rfl
      · left; congr 1
        dsimp only at e
        rw [size_eq, ← n, ← e]; simp
    · right; simp [h]
  whole := by
    rintro L ⟨t, kv⟩ l ⟨e, n⟩
    dsimp only at e
    have hlen : t.toList.length ≤ L - 1 := by
      have := congrArg List.length e; simp at this; omega
    simp only [avlTrait, makeWhole]
    have key : ∀ m : AvlMap K V, m.WF → m.abs = Spec.insertAll [] t.toList →
        ∃ m', (m.insert kv.1 kv.2).map (·.1) = some m' ∧ m'.WF ∧ m'.abs = Spec.insertAll [] l := by
      intro m w a
      obtain ⟨m', e1, w1, a1⟩ := AvlMap.insert_spec w kv.1 kv.2
      exact ⟨m', by simp [e1], w1, by rw [a1, a, ← e, Spec.insertAll_append]; rfl⟩
    cases hc : chkE t none with
    | ok x =>
      obtain ⟨c, g⟩ := x
      obtain ⟨b, s, -, rfl, -⟩ := Tree.chk_iff.1 ((chkE_ok _ _ _).1 hc)
      have : (if t.toList.length = L - 1 then some (⟨L - 1, t⟩ : AvlMap K V)
          else some ⟨t.toList.length, t⟩) = some ⟨t.toList.length, t⟩ := by
        split
        · next h => rw [h]
        · rfl
      simp only [this]
      exact key ⟨_, t⟩ ⟨b, s, rfl⟩ (by
        show t.toList = _
        exact (Spec.insertAll_sorted s).symm)
    | error err =>
      have hd := drain_spec (t.size + 1) (iterOf (L - 1) t)
        (by rw [items_iterOf]; exact hlen) (by rw [items_iterOf, size_eq]; omega)
      rw [items_iterOf] at hd
      obtain ⟨m, e1, w1, a1⟩ := AvlMap.extend_spec AvlMap.wf_new t.toList
      simp only [hd, e1]
      exact key m w1 a1
end
end Verif.Avl
