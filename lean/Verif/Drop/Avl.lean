import Verif.Drop.Core
import Verif.Avl.Reach
/-!
# The AVL tree (src/avl.rs) when `Drop` panics
-/
set_option linter.unusedVariables false
namespace Verif.Avl
open Std Verif.Wild Verif.Unwind Verif.Drop
universe w
variable {σ : Type w} {K V : Type}

namespace Tree
variable [Ord K]

/-- avl.rs:527-569 `ins`.  Line 543, `n.key = k`, destroys the old key; if that panics, the new key
is in the node and line 544 does not happen. -/
def insD (d : Dr σ K) (k : K) (v : V) : Tree K V → σ →
    Option (Ends (Tree K V) (Tree K V × Option V × Bool) × σ)
  | nil, s => some (.done (mk k v nil nil, none, true), s)
  | node nk nv lh rh l r, s =>
    match compare k nk with
    | .eq =>
      match d nk s with
      | (true, s) => some (.unwound (node k nv lh rh l r), s)
      | (false, s) => some (.done (node k v lh rh l r, some nv, false), s)
    | .lt =>
      match insD d k v l s with
      | none => none
      | some (.unwound l', s) => some (.unwound (node nk nv lh rh l' r), s)
      | some (.done (l', old, taller), s) =>
        (afterInsLf nk nv lh rh l' r taller).map (fun x => (.done (x.1, old, x.2), s))
    | .gt =>
      match insD d k v r s with
      | none => none
      | some (.unwound r', s) => some (.unwound (node nk nv lh rh l r'), s)
      | some (.done (r', old, taller), s) =>
        (afterInsRt nk nv lh rh l r' taller).map (fun x => (.done (x.1, old, x.2), s))

/-- If `Drop` panics, the tree is as if the old value had been inserted. -/
theorem insD_spec (d : Dr σ K) (k : K) (v : V) : ∀ (t : Tree K V) (s : σ), match insD d k v t s with
    | none => ins k v t = none
    | some (.unwound t', _) => (∃ o, ins k o t = some (t', some o, false)) ∧ Rude d
    | some (.done r, _) => ins k v t = some r
  | nil, s => rfl
  | node nk nv lh rh l r, s => by
    simp only [insD, ins]
    cases hc : compare k nk with
    | eq =>
      dsimp only
      rcases hd : d nk s with ⟨_ | _, s1⟩
      · rfl
      · exact ⟨⟨nv, rfl⟩, rude_of_eq hd⟩
    | lt =>
      dsimp only
      have ih := insD_spec d k v l s
      rcases e : insD d k v l s with _ | ⟨l' | ⟨l', old, taller⟩, s1⟩ <;> rw [e] at ih <;>
        dsimp only at ih ⊢
      · rw [ih]
      · obtain ⟨⟨o, h⟩, hb⟩ := ih
        exact ⟨⟨o, by simp [h, afterInsLf]⟩, hb⟩
      · rw [ih]
        dsimp only
        rcases afterInsLf nk nv lh rh l' r taller with _ | ⟨t, b⟩ <;> simp only [Option.map_none, Option.map_some]
    | gt =>
      dsimp only
      have ih := insD_spec d k v r s
      rcases e : insD d k v r s with _ | ⟨r' | ⟨r', old, taller⟩, s1⟩ <;> rw [e] at ih <;>
        dsimp only at ih ⊢
      · rw [ih]
      · obtain ⟨⟨o, h⟩, hb⟩ := ih
        exact ⟨⟨o, by simp [h, afterInsRt]⟩, hb⟩
      · rw [ih]
        dsimp only
        rcases afterInsRt nk nv lh rh l r' taller with _ | ⟨t, b⟩ <;> simp only [Option.map_none, Option.map_some]

end Tree

namespace AvlMap
open Tree
variable [Ord K]

/-- avl.rs:1145-1153 `insert`. -/
def insertD (d : Dr σ K) (k : K) (v : V) (m : AvlMap K V) (s : σ) :
    Option (Ends (AvlMap K V) (AvlMap K V × Option V) × σ) :=
  match insD d k v m.root s with
  | none => none
  | some (.unwound t, s) => some (.unwound ⟨m.len, t⟩, s)
  | some (.done (t, old, _), s) => some (.done (⟨m.len + (if old.isNone then 1 else 0), t⟩, old), s)

/-- avl.rs:1009-1012 `clear`: `len` first, then the root. -/
def clearD (p : Bool) (m : AvlMap K V) : Ends (AvlMap K V) (AvlMap K V) :=
  match m.root with
  | .nil => .done ⟨0, .nil⟩
  | .node .. => if p then .unwound ⟨0, .nil⟩ else .done ⟨0, .nil⟩

/-- `remove_entry`, `pop_first`, `pop_last`. -/
def takeD (w : Which K) (m : AvlMap K V) : Option (AvlMap K V × Option (K × V)) :=
  match w with
  | .key p => m.removeEntry p
  | .first => m.popFirst
  | .last => m.popLast

/-- `AvlMap` as programs see it. -/
def dropKit : Drop.Kit σ K V (AvlMap K V) (Which K) where
  new := new
  insert := insertD
  getMut p g m := some (m.getMut p g)
  take := takeD
  clear := clearD

theorem insertD_spec (d : Dr σ K) (k : K) (v : V) (m : AvlMap K V) (s : σ) :
    match insertD d k v m s with
    | none => m.insert k v = none
    | some (.unwound m', _) => (∃ o, m.insert k o = some (m', some o)) ∧ Rude d
    | some (.done r, _) => m.insert k v = some r := by
  have h := insD_spec d k v m.root s
  simp only [insertD, insert]
  rcases e : insD d k v m.root s with _ | ⟨t | ⟨t, old, b⟩, s1⟩ <;> rw [e] at h <;> dsimp only at h ⊢
  · rw [h]
  · obtain ⟨⟨o, h⟩, hb⟩ := h
    exact ⟨⟨o, by simp [h]⟩, hb⟩
  · rw [h]

variable [TransOrd K]

theorem dropKit_keeps : (dropKit (σ := σ) (K := K) (V := V)).Keeps Which.Ok (fun _ => True)
    Reachable where
  insert d a b m s hm := by
    have h := insertD_spec d a b m s
    simp only [dropKit]
    rcases e : insertD d a b m s with _ | ⟨m' | r, s1⟩ <;> rw [e] at h <;> dsimp only at h
    · obtain ⟨m2, e2, -⟩ := insert_spec hm.wf a b
      rw [h] at e2; cases e2
    · obtain ⟨⟨o, h⟩, -⟩ := h
      exact ⟨_, _, rfl, hm.insert h⟩
    · exact ⟨_, _, rfl, hm.insert h⟩
  getMut {p} g {m} hp hm := ⟨_, _, rfl, hm.getMut hp⟩
  take {w m} hw hm := by
    cases w with
    | key p =>
      obtain ⟨m2, e2, -⟩ := removeEntry_spec hm.wf hw
      exact ⟨_, _, e2, hm.removeEntry hw e2⟩
    | first =>
      obtain ⟨m2, e2, -⟩ := popFirst_spec hm.wf
      exact ⟨_, _, e2, hm.popFirst e2⟩
    | last =>
      obtain ⟨m2, e2, -⟩ := popLast_spec hm.wf
      exact ⟨_, _, e2, hm.popLast e2⟩
  clear {p m} _ hm := by
    simp only [dropKit, clearD]
    cases m.root with
    | nil => exact .new
    | node => cases p <;> exact .new

end AvlMap
end Verif.Avl
