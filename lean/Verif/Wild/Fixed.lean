import Verif.Wild.Core
import Verif.Fixed.Spec
/-!
# The fixed-layout B-tree under a lawless comparison

The functions of `Verif.Fixed.Model` that compare keys, with a `Cmp` for the comparison.  What
does not compare (`absorb`, `afterKid`, `popGreatest`, …) is shared with that model.
-/
set_option linter.unusedVariables false
namespace Verif.Fixed
open Verif.BTree Verif.BTree.Node Verif.Wild
universe w
variable {σ : Type w} {K V : Type}

mutual
/-- core.rs:367-377 `get`. -/
def getW (lin : Bool) (c : Cmp σ K) : Node K V → σ → Option (Ends Unit (Option (K × V)) × σ)
  | mk es ks, s =>
    match searchW lin c es s with
    | none => none
    | some (none, s) => some (.unwound (), s)
    | some (some (i, true), s) => (es[i]?).map (fun e => (.done (some e), s))
    | some (some (i, false), s) => getAtW lin c i ks s
/-- `get` on child `i`. -/
def getAtW (lin : Bool) (c : Cmp σ K) :
    Nat → List (Node K V) → σ → Option (Ends Unit (Option (K × V)) × σ)
  | _, [], s => some (.done none, s)
  | 0, n :: _, s => getW lin c n s
  | i + 1, _ :: ks, s => getAtW lin c i ks s
end

mutual
/-- core.rs:379-389 `get_mut`, followed by a write `g` through the reference. -/
def getMutW (lin : Bool) (c : Cmp σ K) (g : V → V) :
    Node K V → σ → Option (Ends (Node K V) (Node K V × Bool) × σ)
  | mk es ks, s =>
    match searchW lin c es s with
    | none => none
    | some (none, s) => some (.unwound (mk es ks), s)
    | some (some (i, true), s) =>
      (es[i]?).map (fun e => (.done (mk (es.set i (e.1, g e.2)) ks, true), s))
    | some (some (i, false), s) =>
      match getMutAtW lin c g i ks s with
      | none => some (.done (mk es ks, false), s)
      | some none => none
      | some (some (.unwound n, s)) => some (.unwound (mk es (ks.set i n)), s)
      | some (some (.done (n, b), s)) => some (.done (mk es (ks.set i n), b), s)
/-- `get_mut` on child `i`. -/
def getMutAtW (lin : Bool) (c : Cmp σ K) (g : V → V) : Nat → List (Node K V) → σ →
    Option (Option (Ends (Node K V) (Node K V × Bool) × σ))
  | _, [], _ => none
  | 0, n :: _, s => some (getMutW lin c g n s)
  | i + 1, _ :: ks, s => getMutAtW lin c g i ks s
end

mutual
/-- core.rs:391-424 `insert`. -/
def insW (lin : Bool) (c : Cmp σ K) (k : K) (v : V) :
    Node K V → σ → Option (Ends (Node K V) (InsRes K V) × σ)
  | mk es ks, s =>
    match searchW lin c es s with
    | none => none
    | some (none, s) => some (.unwound (mk es ks), s)
    | some (some (i, true), s) =>
      match es[i]? with
      | none => none
      | some e => some (.done (.replaced e.2 (mk (es.set i (k, v)) ks)), s)
    | some (some (i, false), s) =>
      match insAtW lin c k v i ks s with
      | none => (absorb i none (k, v) es ks).map (fun r => (.done r, s))
      | some none => none
      | some (some (.unwound n, s)) => some (.unwound (mk es (ks.set i n)), s)
      | some (some (.done (.split lhs kv n), s)) =>
        (absorb i (some lhs) kv es (ks.set i n)).map (fun r => (.done r, s))
      | some (some (.done (.replaced o n), s)) =>
        some (.done (.replaced o (mk es (ks.set i n))), s)
      | some (some (.done (.absorbed n), s)) => some (.done (.absorbed (mk es (ks.set i n))), s)
/-- `insert` on child `i`. -/
def insAtW (lin : Bool) (c : Cmp σ K) (k : K) (v : V) : Nat → List (Node K V) → σ →
    Option (Option (Ends (Node K V) (InsRes K V) × σ))
  | _, [], _ => none
  | 0, n :: _, s => some (insW lin c k v n s)
  | i + 1, _ :: ks, s => insAtW lin c k v i ks s
end

mutual
/-- core.rs:695-732 `remove`; inner `none` = not found. -/
def removeW (lin : Bool) (c : Cmp σ K) :
    Node K V → σ → Option (Ends (Node K V) (Option (RemRes K V)) × σ)
  | mk es ks, s =>
    match searchW lin c es s with
    | none => none
    | some (none, s) => some (.unwound (mk es ks), s)
    | some (some (i, true), s) =>
      if ks.isEmpty then
        match ivRemove MAX i es with
        | none => none
        | some (kv, es') => some (.done (some (kv, decide (es'.length < MIN), mk es' ks)), s)
      else
        match popGreatestKid i ks with
        | none => none
        | some none => none
        | some (some (kv, b, n)) =>
          match es[i]? with
          | none => none
          | some old =>
            (afterKid i old b (es.set i kv) (ks.set i n)).map (fun r => (.done (some r), s))
    | some (some (i, false), s) =>
      match removeAtW lin c i ks s with
      | none => some (.done none, s)
      | some none => none
      | some (some (.unwound n, s)) => some (.unwound (mk es (ks.set i n)), s)
      | some (some (.done none, s)) => some (.done none, s)
      | some (some (.done (some (kv, b, n)), s)) =>
        (afterKid i kv b es (ks.set i n)).map (fun r => (.done (some r), s))
/-- `remove` on child `i`. -/
def removeAtW (lin : Bool) (c : Cmp σ K) : Nat → List (Node K V) → σ →
    Option (Option (Ends (Node K V) (Option (RemRes K V)) × σ))
  | _, [], _ => none
  | 0, n :: _, s => some (removeW lin c n s)
  | i + 1, _ :: ks, s => removeAtW lin c i ks s
end

/-! ### The map -/

namespace FMap

/-- fixed.rs:22-29 `get`. -/
def getW (lin : Bool) (m : FMap K V) (c : Cmp σ K) (s : σ) :
    Option (Ends Unit (Option (K × V)) × σ) :=
  match m.root with
  | none => some (.done none, s)
  | some n => Fixed.getW lin c n s

/-- fixed.rs:31-40 `get_mut`, followed by a write. -/
def getMutW (lin : Bool) (m : FMap K V) (c : Cmp σ K) (g : V → V) (s : σ) :
    Option (Ends (FMap K V) (FMap K V × Bool) × σ) :=
  match m.root with
  | none => some (.done (m, false), s)
  | some n =>
    match Fixed.getMutW lin c g n s with
    | none => none
    | some (.unwound n, s) => some (.unwound ⟨some n, m.len⟩, s)
    | some (.done (n, b), s) => some (.done (⟨some n, m.len⟩, b), s)

/-- fixed.rs:42-73 `insert`. -/
def insertW (lin : Bool) (m : FMap K V) (c : Cmp σ K) (k : K) (v : V) (s : σ) :
    Option (Ends (FMap K V) (FMap K V × Option V) × σ) :=
  match m.root with
  | none =>
    match ivPush MAX (k, v) [] with
    | none => none
    | some es => some (.done (⟨some (Node.mk es []), 1⟩, none), s)
  | some n =>
    match insW lin c k v n s with
    | none => none
    | some (.unwound n, s) => some (.unwound ⟨some n, m.len⟩, s)
    | some (.done (.absorbed n'), s) => some (.done (⟨some n', m.len + 1⟩, none), s)
    | some (.done (.replaced o n'), s) => some (.done (⟨some n', m.len⟩, some o), s)
    | some (.done (.split lhs kv n'), s) =>
      match ivPush MAX kv [], (kPush lhs []).bind (kPush n') with
      | some es, some ks => some (.done (⟨some (Node.mk es ks), m.len + 1⟩, none), s)
      | _, _ => none

/-- fixed.rs:121-133 `remove`; the key is kept in the result. -/
def removeW (lin : Bool) (m : FMap K V) (c : Cmp σ K) (s : σ) :
    Option (Ends (FMap K V) (FMap K V × Option (K × V)) × σ) :=
  match m.root with
  | none => some (.done (m, none), s)
  | some n =>
    match Fixed.removeW lin c n s with
    | none => none
    | some (.unwound n, s) => some (.unwound ⟨some n, m.len⟩, s)
    | some (.done none, s) => some (.done (m, none), s)
    | some (.done (some r), s) => (m.rmAndRebal (some (some r))).map (fun x => (.done x, s))

end FMap

/-! ### With a function of the key, these are the functions of the other model -/

mutual
theorem getW_tame (lin : Bool) (p : K → Ordering) : ∀ (n : Node K V) (s : σ),
    getW lin (tame p) n s = (get lin p n).map (fun r => (.done r, s))
  | mk es ks, s => by
    rw [getW, get, searchW_tame]
    rcases searchKeys lin p es with _ | ⟨i, _ | _⟩
    · rfl
    · exact getAtW_tame lin p i ks s
    · simp only [Option.map_some, Option.map_map]; rfl
theorem getAtW_tame (lin : Bool) (p : K → Ordering) : ∀ (i : Nat) (ks : List (Node K V)) (s : σ),
    getAtW lin (tame p) i ks s = (getAt lin p i ks).map (fun r => (.done r, s))
  | _, [], _ => by simp [getAtW, getAt]
  | 0, n :: _, s => by rw [getAtW, getAt]; exact getW_tame lin p n s
  | i + 1, _ :: ks, s => by rw [getAtW, getAt]; exact getAtW_tame lin p i ks s
end

mutual
theorem getMutW_tame (lin : Bool) (p : K → Ordering) (g : V → V) : ∀ (n : Node K V) (s : σ),
    getMutW lin (tame p) g n s = (getMut lin p g n).map (fun r => (.done r, s))
  | mk es ks, s => by
    rw [getMutW, getMut, searchW_tame]
    rcases searchKeys lin p es with _ | ⟨i, _ | _⟩
    · rfl
    · simp only [Option.map_some, getMutAtW_tame lin p g i ks s]
      rcases getMutAt lin p g i ks with _ | _ | ⟨n, b⟩ <;> rfl
    · simp only [Option.map_some, Option.map_map]; rfl
theorem getMutAtW_tame (lin : Bool) (p : K → Ordering) (g : V → V) :
    ∀ (i : Nat) (ks : List (Node K V)) (s : σ), getMutAtW lin (tame p) g i ks s =
      (getMutAt lin p g i ks).map (fun o => o.map (fun r => (.done r, s)))
  | _, [], _ => by simp [getMutAtW, getMutAt]
  | 0, n :: _, s => by rw [getMutAtW, getMutAt, getMutW_tame lin p g n s]; rfl
  | i + 1, _ :: ks, s => by rw [getMutAtW, getMutAt]; exact getMutAtW_tame lin p g i ks s
end

mutual
theorem insW_tame [Ord K] (lin : Bool) (k : K) (v : V) : ∀ (n : Node K V) (s : σ),
    insW lin (tame (compare k)) k v n s = (ins lin k v n).map (fun r => (.done r, s))
  | mk es ks, s => by
    rw [insW, ins, searchW_tame]
    rcases searchKeys lin (compare k) es with _ | ⟨i, _ | _⟩
    · rfl
    · simp only [Option.map_some, insAtW_tame lin k v i ks s]
      rcases insAt lin k v i ks with _ | _ | ⟨_ | _ | _⟩ <;> rfl
    · simp only [Option.map_some]
      cases es[i]? <;> rfl
theorem insAtW_tame [Ord K] (lin : Bool) (k : K) (v : V) :
    ∀ (i : Nat) (ks : List (Node K V)) (s : σ), insAtW lin (tame (compare k)) k v i ks s =
      (insAt lin k v i ks).map (fun o => o.map (fun r => (.done r, s)))
  | _, [], _ => by simp [insAtW, insAt]
  | 0, n :: _, s => by rw [insAtW, insAt, insW_tame lin k v n s]; rfl
  | i + 1, _ :: ks, s => by rw [insAtW, insAt]; exact insAtW_tame lin k v i ks s
end

mutual
theorem removeW_tame (lin : Bool) (p : K → Ordering) : ∀ (n : Node K V) (s : σ),
    removeW lin (tame p) n s = (remove lin p n).map (fun r => (.done r, s))
  | mk es ks, s => by
    rw [removeW, remove, searchW_tame]
    rcases searchKeys lin p es with _ | ⟨i, _ | _⟩
    · rfl
    · simp only [Option.map_some, removeAtW_tame lin p i ks s]
      rcases removeAt lin p i ks with _ | _ | _ | ⟨kv, b, n⟩
      · rfl
      · rfl
      · rfl
      · simp only [Option.map_some, Option.map_map]; rfl
    · simp only [Option.map_some]
      split
      · rcases ivRemove MAX i es with _ | ⟨kv, es'⟩ <;> rfl
      · rcases popGreatestKid i ks with _ | _ | ⟨kv, b, n⟩
        · rfl
        · rfl
        · cases es[i]? with
          | none => rfl
          | some old => simp only [Option.map_map]; rfl
theorem removeAtW_tame (lin : Bool) (p : K → Ordering) :
    ∀ (i : Nat) (ks : List (Node K V)) (s : σ), removeAtW lin (tame p) i ks s =
      (removeAt lin p i ks).map (fun o => o.map (fun r => (.done r, s)))
  | _, [], _ => by simp [removeAtW, removeAt]
  | 0, n :: _, s => by rw [removeAtW, removeAt, removeW_tame lin p n s]; rfl
  | i + 1, _ :: ks, s => by rw [removeAtW, removeAt]; exact removeAtW_tame lin p i ks s
end

namespace FMap

theorem getW_tame (lin : Bool) (m : FMap K V) (p : K → Ordering) (s : σ) :
    (m.getW lin (tame p) s).map (fun x => match x.1 with
      | .unwound _ => none
      | .done r => some (r.map (·.2))) = (m.get lin p).map some := by
  obtain ⟨_ | n, len⟩ := m
  · rfl
  · simp only [getW, get, Fixed.getW_tame, Option.map_map]; rfl

theorem getMutW_tame (lin : Bool) (m : FMap K V) (p : K → Ordering) (g : V → V) (s : σ) :
    m.getMutW lin (tame p) g s = (m.getMut lin p g).map (fun r => (.done r, s)) := by
  obtain ⟨_ | n, len⟩ := m
  · rfl
  · simp only [getMutW, getMut, Fixed.getMutW_tame, Option.map_map]
    rcases Fixed.getMut lin p g n with _ | ⟨n', b⟩ <;> rfl

theorem insertW_tame [Ord K] (lin : Bool) (m : FMap K V) (k : K) (v : V) (s : σ) :
    m.insertW lin (tame (compare k)) k v s = (m.insert lin k v).map (fun r => (.done r, s)) := by
  obtain ⟨_ | n, len⟩ := m
  · simp only [insertW, insert]
    cases ivPush MAX (k, v) [] <;> rfl
  · simp only [insertW, insert, insW_tame]
    rcases ins lin k v n with _ | ⟨_ | ⟨lhs, kv, n'⟩ | _⟩
    · rfl
    · rfl
    · simp only [Option.map_some]
      cases ivPush MAX kv [] with
      | none => rfl
      | some es => cases (kPush lhs []).bind (kPush n') <;> rfl
    · rfl

theorem removeW_tame (lin : Bool) (m : FMap K V) (p : K → Ordering) (s : σ) :
    (m.removeW lin (tame p) s).map (fun x => match x.1 with
      | .unwound m => (m, none)
      | .done r => (r.1, r.2.map (·.2))) = m.remove lin p := by
  obtain ⟨_ | n, len⟩ := m
  · rfl
  · simp only [removeW, remove, Fixed.removeW_tame]
    rcases Fixed.remove lin p n with _ | _ | r
    · rfl
    · rfl
    · simp only [Option.map_some, Option.map_map]
      rfl

end FMap
end Verif.Fixed
