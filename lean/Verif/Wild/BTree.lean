import Verif.Wild.Core
import Verif.BTree.Map
/-!
# `BTreeMap` (src/btree.rs) under a lawless comparison

The functions of `Verif.BTree.Model` that compare keys, with a `Cmp` for the comparison.  What
does not compare (`absorb`, `afterKid`, `popLast`, …) is shared with that model.
-/
set_option linter.unusedVariables false
namespace Verif.BTree
open Verif.Wild
universe w
variable {σ : Type w} {K V : Type}

namespace Node

mutual
/-- btree.rs:91-105 `Node::get_key_value`. -/
def getW (c : Cmp σ K) : Node K V → σ → Option (Ends Unit (Option (K × V)) × σ)
  | mk es ks, s =>
    match locateW c es s with
    | (none, s) => some (.unwound (), s)
    | (some (i, true), s) => (es[i]?).map (fun e => (.done (some e), s))
    | (some (i, false), s) => getAtW c (descIdx i es ks.length) ks s
/-- `get_key_value` on child `i`. -/
def getAtW (c : Cmp σ K) :
    Nat → List (Node K V) → σ → Option (Ends Unit (Option (K × V)) × σ)
  | _, [], s => some (.done none, s)
  | 0, n :: _, s => getW c n s
  | i + 1, _ :: ks, s => getAtW c i ks s
end

mutual
/-- btree.rs:566-592 `contains_key`. -/
def containsW (c : Cmp σ K) : Node K V → σ → Ends Unit Bool × σ
  | mk es ks, s =>
    match locateW c es s with
    | (none, s) => (.unwound (), s)
    | (some (_, true), s) => (.done true, s)
    | (some (i, false), s) => containsAtW c i ks s
def containsAtW (c : Cmp σ K) : Nat → List (Node K V) → σ → Ends Unit Bool × σ
  | _, [], s => (.done false, s)
  | 0, n :: _, s => containsW c n s
  | i + 1, _ :: ks, s => containsAtW c i ks s
end

mutual
/-- btree.rs:107-129 `Node::get_mut`, followed by a write `g` through the reference. -/
def getMutW (c : Cmp σ K) (g : V → V) :
    Node K V → σ → Option (Ends (Node K V) (Node K V × Bool) × σ)
  | mk es ks, s =>
    match locateW c es s with
    | (none, s) => some (.unwound (mk es ks), s)
    | (some (i, true), s) =>
      (es[i]?).map (fun e => (.done (mk (es.set i (e.1, g e.2)) ks, true), s))
    | (some (i, false), s) =>
      match getMutAtW c g (descIdx i es ks.length) ks s with
      | none => some (.done (mk es ks, false), s)
      | some none => none
      | some (some (.unwound n, s)) =>
        some (.unwound (mk es (ks.set (descIdx i es ks.length) n)), s)
      | some (some (.done (n, b), s)) =>
        some (.done (mk es (ks.set (descIdx i es ks.length) n), b), s)
/-- `get_mut` on child `i`. -/
def getMutAtW (c : Cmp σ K) (g : V → V) : Nat → List (Node K V) → σ →
    Option (Option (Ends (Node K V) (Node K V × Bool) × σ))
  | _, [], _ => none
  | 0, n :: _, s => some (getMutW c g n s)
  | i + 1, _ :: ks, s => getMutAtW c g i ks s
end

mutual
/-- btree.rs:131-178 `Node::insert`. -/
def insW (N : Nat) (c : Cmp σ K) (k : K) (v : V) :
    Node K V → σ → Option (Ends (Node K V) (InsRes K V) × σ)
  | mk es ks, s =>
    match locateW c es s with
    | (none, s) => some (.unwound (mk es ks), s)
    | (some (i, true), s) =>
      match es[i]? with
      | none => none
      | some e => some (.done (.replaced e.2 (mk (es.set i (k, v)) ks)), s)
    | (some (i, false), s) =>
      match insAtW N c k v i ks s with
      | none => (absorb N i none (k, v) es ks).map (fun r => (.done r, s))
      | some none => none
      | some (some (.unwound n, s)) => some (.unwound (mk es (ks.set i n)), s)
      | some (some (.done (.split lhs kv n), s)) =>
        (absorb N i (some lhs) kv es (ks.set i n)).map (fun r => (.done r, s))
      | some (some (.done (.replaced o n), s)) =>
        some (.done (.replaced o (mk es (ks.set i n))), s)
      | some (some (.done (.absorbed n), s)) => some (.done (.absorbed (mk es (ks.set i n))), s)
/-- `insert` on child `i`. -/
def insAtW (N : Nat) (c : Cmp σ K) (k : K) (v : V) : Nat → List (Node K V) → σ →
    Option (Option (Ends (Node K V) (InsRes K V) × σ))
  | _, [], _ => none
  | 0, n :: _, s => some (insW N c k v n s)
  | i + 1, _ :: ks, s => insAtW N c k v i ks s
end

mutual
/-- btree.rs:493-543 `Node::remove`; inner `none` = not found. -/
def removeW (N : Nat) (c : Cmp σ K) :
    Node K V → σ → Option (Ends (Node K V) (Option (RemRes K V)) × σ)
  | mk es ks, s =>
    match locateW c es s with
    | (none, s) => some (.unwound (mk es ks), s)
    | (some (i, true), s) =>
      if ks.isEmpty then
        match vRemove i es with
        | none => none
        | some (kv, es') => some (.done (some (kv, decide (es'.length < N), mk es' ks)), s)
      else
        match popLastKid N i ks with
        | none => none
        | some none => none
        | some (some (kv, b, n)) =>
          match es[i]? with
          | none => none
          | some old =>
            (afterKid N i old b (es.set i kv) (ks.set i n)).map (fun r => (.done (some r), s))
    | (some (i, false), s) =>
      match removeAtW N c (descIdx i es ks.length) ks s with
      | none => some (.done none, s)
      | some none => none
      | some (some (.unwound n, s)) =>
        some (.unwound (mk es (ks.set (descIdx i es ks.length) n)), s)
      | some (some (.done none, s)) => some (.done none, s)
      | some (some (.done (some (kv, b, n)), s)) =>
        (afterKid N i kv b es (ks.set (descIdx i es ks.length) n)).map
          (fun r => (.done (some r), s))
/-- `remove` on child `i`. -/
def removeAtW (N : Nat) (c : Cmp σ K) : Nat → List (Node K V) → σ →
    Option (Option (Ends (Node K V) (Option (RemRes K V)) × σ))
  | _, [], _ => none
  | 0, n :: _, s => some (removeW N c n s)
  | i + 1, _ :: ks, s => removeAtW N c i ks s
end

end Node
open Node

/-! ### The map -/

namespace BTreeMap

/-- btree.rs:651-660 `get_key_value`. -/
def getW (m : BTreeMap K V) (c : Cmp σ K) (s : σ) : Option (Ends Unit (Option (K × V)) × σ) :=
  match m.root with
  | none => some (.done none, s)
  | some n => n.getW c s

/-- btree.rs:566-592 `contains_key`. -/
def containsW (m : BTreeMap K V) (c : Cmp σ K) (s : σ) : Ends Unit Bool × σ :=
  match m.root with
  | none => (.done false, s)
  | some n => n.containsW c s

/-- btree.rs:662-671 `get_mut`, followed by a write. -/
def getMutW (m : BTreeMap K V) (c : Cmp σ K) (g : V → V) (s : σ) :
    Option (Ends (BTreeMap K V) (BTreeMap K V × Bool) × σ) :=
  match m.root with
  | none => some (.done (m, false), s)
  | some n =>
    match n.getMutW c g s with
    | none => none
    | some (.unwound n, s) => some (.unwound ⟨m.len, some n⟩, s)
    | some (.done (n, b), s) => some (.done (⟨m.len, some n⟩, b), s)

/-- btree.rs:683-714 `insert`. -/
def insertW (N : Nat) (m : BTreeMap K V) (c : Cmp σ K) (k : K) (v : V) (s : σ) :
    Option (Ends (BTreeMap K V) (BTreeMap K V × Option V) × σ) :=
  match m.root with
  | none => some (.done (⟨1, some (.mk [(k, v)] [])⟩, none), s)
  | some n =>
    match n.insW N c k v s with
    | none => none
    | some (.unwound n, s) => some (.unwound ⟨m.len, some n⟩, s)
    | some (.done (.absorbed n'), s) => some (.done (⟨m.len + 1, some n'⟩, none), s)
    | some (.done (.replaced o n'), s) => some (.done (⟨m.len, some n'⟩, some o), s)
    | some (.done (.split lhs kv n'), s) =>
      some (.done (⟨m.len + 1, some (.mk [kv] [lhs, n'])⟩, none), s)

/-- btree.rs:819-837 `rm_and_rebal` with `n.remove(key)` for the remover. -/
def takeW (N : Nat) (m : BTreeMap K V) (c : Cmp σ K) (s : σ) :
    Option (Ends (BTreeMap K V) (BTreeMap K V × Option (K × V)) × σ) :=
  match m.root with
  | none => some (.done (m, none), s)
  | some n =>
    match n.removeW N c s with
    | none => none
    | some (.unwound n, s) => some (.unwound ⟨m.len, some n⟩, s)
    | some (.done r, s) => (m.rmAndRebal (fun _ => some r)).map (fun x => (.done x, s))

/-- btree.rs:888-900 `remove`: two searches, which need not agree; the key is kept in the
result. -/
def removeW (N : Nat) (m : BTreeMap K V) (c : Cmp σ K) (s : σ) :
    Option (Ends (BTreeMap K V) (BTreeMap K V × Option (K × V)) × σ) :=
  match m.containsW c s with
  | (.unwound _, s) => some (.unwound m, s)
  | (.done false, s) => some (.done (m, none), s)
  | (.done true, s) => m.takeW N c s

end BTreeMap

/-! ### With a function of the key, these are the functions of the other model -/

namespace Node

mutual
theorem containsW_tame (p : K → Ordering) : ∀ (n : Node K V) (s : σ),
    containsW (tame p) n s = (.done (contains p n), s)
  | mk es ks, s => by
    rw [containsW, contains, locateW_tame]
    rcases locate p es with ⟨i, _ | _⟩
    · exact containsAtW_tame p i ks s
    · rfl
theorem containsAtW_tame (p : K → Ordering) : ∀ (i : Nat) (ks : List (Node K V)) (s : σ),
    containsAtW (tame p) i ks s = (.done (containsAt p i ks), s)
  | _, [], _ => by simp [containsAtW, containsAt]
  | 0, n :: _, s => by rw [containsAtW, containsAt]; exact containsW_tame p n s
  | i + 1, _ :: ks, s => by rw [containsAtW, containsAt]; exact containsAtW_tame p i ks s
end

theorem locate_found {p : K → Ordering} : ∀ {es : List (K × V)}, (locate p es).2 = true →
    (locate p es).1 < es.length
  | [], h => by simp [locate] at h
  | e :: es, h => by
    rw [locate] at h ⊢
    cases hp : p e.1 with
    | gt =>
      rw [hp] at h
      simp only [List.length_cons] at h ⊢
      have := locate_found h
      omega
    | eq => simp
    | lt => rw [hp] at h; simp at h

mutual
theorem getW_tame (p : K → Ordering) : ∀ (n : Node K V) (s : σ),
    getW (tame p) n s = some (.done (get p n), s)
  | mk es ks, s => by
    rw [getW, get, locateW_tame]
    have h := locate_found (p := p) (es := es)
    generalize locate p es = r at h ⊢
    rcases r with ⟨i, _ | _⟩
    · exact getAtW_tame p _ ks s
    · simp [List.getElem?_eq_getElem (h rfl)]
theorem getAtW_tame (p : K → Ordering) : ∀ (i : Nat) (ks : List (Node K V)) (s : σ),
    getAtW (tame p) i ks s = some (.done (getAt p i ks), s)
  | _, [], _ => by simp [getAtW, getAt]
  | 0, n :: _, s => by rw [getAtW, getAt]; exact getW_tame p n s
  | i + 1, _ :: ks, s => by rw [getAtW, getAt]; exact getAtW_tame p i ks s
end

mutual
theorem getMutW_tame (p : K → Ordering) (g : V → V) : ∀ (n : Node K V) (s : σ),
    getMutW (tame p) g n s = some (.done (getMut p g n), s)
  | mk es ks, s => by
    rw [getMutW, getMut, locateW_tame]
    have h := locate_found (p := p) (es := es)
    generalize locate p es = r at h ⊢
    rcases r with ⟨i, _ | _⟩
    · have e := getMutAtW_tame p g (descIdx i es ks.length) ks s
      simp only [e, getMutAt_eq]
      cases ks[descIdx i es ks.length]? <;> simp
    · have hi : i < es.length := h rfl
      obtain ⟨es1, x, es2, rfl, rfl⟩ := split_at es i hi
      simp only [get_mid, Option.map_some, set_mid, modify_mid, if_true]
theorem getMutAtW_tame (p : K → Ordering) (g : V → V) :
    ∀ (i : Nat) (ks : List (Node K V)) (s : σ), getMutAtW (tame p) g i ks s =
      ks[i]?.map (fun n => some (.done (getMut p g n), s))
  | _, [], _ => by simp [getMutAtW]
  | 0, n :: _, s => by rw [getMutAtW, getMutW_tame p g n s]; rfl
  | i + 1, _ :: ks, s => by
    rw [getMutAtW, List.getElem?_cons_succ]; exact getMutAtW_tame p g i ks s
end

mutual
theorem insW_tame [Ord K] (N : Nat) (k : K) (v : V) : ∀ (n : Node K V) (s : σ),
    insW N (tame (compare k)) k v n s = (ins N k v n).map (fun r => (.done r, s))
  | mk es ks, s => by
    rw [insW, ins, locateW_tame]
    rcases locate (compare k) es with ⟨i, _ | _⟩
    · simp only [insAtW_tame N k v i ks s, Bool.false_eq_true, if_false]
      rcases insAt N k v i ks with _ | _ | ⟨_ | _ | _⟩ <;> rfl
    · simp only [if_true]
      cases es[i]? <;> rfl
theorem insAtW_tame [Ord K] (N : Nat) (k : K) (v : V) :
    ∀ (i : Nat) (ks : List (Node K V)) (s : σ), insAtW N (tame (compare k)) k v i ks s =
      (insAt N k v i ks).map (fun o => o.map (fun r => (.done r, s)))
  | _, [], _ => by simp [insAtW, insAt]
  | 0, n :: _, s => by rw [insAtW, insAt, insW_tame N k v n s]; rfl
  | i + 1, _ :: ks, s => by rw [insAtW, insAt]; exact insAtW_tame N k v i ks s
end

mutual
theorem removeW_tame (N : Nat) (p : K → Ordering) : ∀ (n : Node K V) (s : σ),
    removeW N (tame p) n s = (remove N p n).map (fun r => (.done r, s))
  | mk es ks, s => by
    rw [removeW, remove, locateW_tame]
    rcases locate p es with ⟨i, _ | _⟩
    · simp only [removeAtW_tame N p _ ks s, Bool.false_eq_true, if_false]
      rcases removeAt N p (descIdx i es ks.length) ks with _ | _ | _ | ⟨kv, b, n⟩
      · rfl
      · rfl
      · rfl
      · simp only [Option.map_some, Option.map_map]; rfl
    · simp only [if_true]
      split
      · rcases vRemove i es with _ | ⟨kv, es'⟩ <;> rfl
      · rcases popLastKid N i ks with _ | _ | ⟨kv, b, n⟩
        · rfl
        · rfl
        · cases es[i]? with
          | none => rfl
          | some old => simp only [Option.map_map]; rfl
theorem removeAtW_tame (N : Nat) (p : K → Ordering) :
    ∀ (i : Nat) (ks : List (Node K V)) (s : σ), removeAtW N (tame p) i ks s =
      (removeAt N p i ks).map (fun o => o.map (fun r => (.done r, s)))
  | _, [], _ => by simp [removeAtW, removeAt]
  | 0, n :: _, s => by rw [removeAtW, removeAt, removeW_tame N p n s]; rfl
  | i + 1, _ :: ks, s => by rw [removeAtW, removeAt]; exact removeAtW_tame N p i ks s
end

end Node

namespace BTreeMap

theorem getW_tame (m : BTreeMap K V) (p : K → Ordering) (s : σ) :
    m.getW (tame p) s = some (.done (m.getKeyValue p), s) := by
  obtain ⟨len, _ | n⟩ := m
  · rfl
  · exact Node.getW_tame p n s

theorem containsW_tame (m : BTreeMap K V) (p : K → Ordering) (s : σ) :
    m.containsW (tame p) s = (.done (m.containsKey p), s) := by
  obtain ⟨len, _ | n⟩ := m
  · rfl
  · exact Node.containsW_tame p n s

theorem getMutW_tame (m : BTreeMap K V) (p : K → Ordering) (g : V → V) (s : σ) :
    m.getMutW (tame p) g s = some (.done (m.getMut p g), s) := by
  obtain ⟨len, _ | n⟩ := m
  · rfl
  · simp only [getMutW, getMut, Node.getMutW_tame]

theorem insertW_tame [Ord K] (N : Nat) (m : BTreeMap K V) (k : K) (v : V) (s : σ) :
    m.insertW N (tame (compare k)) k v s = (m.insert N k v).map (fun r => (.done r, s)) := by
  obtain ⟨len, _ | n⟩ := m
  · rfl
  · simp only [insertW, insert, insW_tame]
    rcases n.ins N k v with _ | ⟨_ | ⟨lhs, kv, n'⟩ | _⟩ <;> rfl

theorem takeW_tame (N : Nat) (m : BTreeMap K V) (p : K → Ordering) (s : σ) :
    m.takeW N (tame p) s =
      (m.rmAndRebal (fun n => n.remove N p)).map (fun r => (.done r, s)) := by
  obtain ⟨len, _ | n⟩ := m
  · rfl
  · simp only [takeW, rmAndRebal, Node.removeW_tame]
    rcases n.remove N p with _ | _ | ⟨kv, b, n'⟩ <;> rfl

theorem removeW_tame (N : Nat) (m : BTreeMap K V) (p : K → Ordering) (s : σ) :
    (m.removeW N (tame p) s).map (fun x => match x.1 with
      | .unwound m => (m, none)
      | .done r => (r.1, r.2.map (·.2))) = m.remove N p := by
  rw [removeW, containsW_tame, remove]
  cases m.containsKey p with
  | false => rfl
  | true => simp only [takeW_tame, Option.map_map, if_true]; rfl

end BTreeMap
end Verif.BTree
