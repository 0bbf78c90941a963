import Verif.Unwind.Bulk
import Verif.Unwind.IntoSpec
/-!
# What `append`, `retain` and `split_off` do when `Clone` panics
-/
set_option linter.unusedVariables false
set_option linter.unusedSectionVars false
namespace Verif.Unwind
open Verif.Wild
universe w
variable {σ : Type w} {K V : Type}

/-- If the plain computation `p` succeeds, `x` is unwound or has the same result up to `er`. -/
def Tracks {A A' : Type} (c : Cl σ K V) (er : A → A') (p : Option A')
    (x : Option (Ends Unit A × σ)) : Prop :=
  ∀ a', p = some a' → ∃ q s', x = some (q, s') ∧ match q with
    | .unwound _ => Bad c
    | .done a => er a = a'

theorem Tracks.bind {A A' B B' : Type} {c : Cl σ K V} {er : A → A'} {er2 : B → B'} {p : Option A'}
    {x : Option (Ends Unit A × σ)} {g : A' → Option B'} {f : A → σ → Option (Ends Unit B × σ)}
    (h : Tracks c er p x) (hf : ∀ a s, Tracks c er2 (g (er a)) (f a s)) :
    Tracks c er2 (p.bind g) (andThen x f) := by
  intro b' hb
  obtain ⟨a', ha, hg⟩ := Option.bind_eq_some_iff.1 hb
  obtain ⟨q, s', e, hq⟩ := h a' ha
  subst e
  cases q with
  | unwound u => exact ⟨_, _, rfl, hq⟩
  | done a =>
    dsimp only at hq
    subst hq
    exact hf a s' b' hg

theorem Tracks.done {A A' : Type} {c : Cl σ K V} {er : A → A'} {a : A} {a' : A'} {s : σ}
    (h : er a = a') : Tracks c er (some a') (some (.done a, s)) := by
  intro b hb
  cases hb
  exact ⟨_, _, rfl, h⟩

theorem Tracks.none {A A' : Type} {c : Cl σ K V} {er : A → A'} {x : Option (Ends Unit A × σ)} :
    Tracks c er none x := by
  intro b hb
  cases hb

theorem Tracks.copy {A A' : Type} {c : Cl σ K V} {sh : Bool} {e : K × V} {s : σ} {er : A → A'}
    {p : Option A'} {f : Unit → σ → Option (Ends Unit A × σ)} (h : ∀ s, Tracks c er p (f () s)) :
    Tracks c er p (andThen (copyIf c sh e s) f) := by
  simp only [copyIf]
  rcases hcl : cloneIf c sh [e] s with ⟨_ | _, s1⟩
  · exact h s1
  · intro a' _
    exact ⟨_, _, rfl, bad_of_cloneIf hcl⟩

end Verif.Unwind

namespace Verif.Avl
open Verif.Wild Verif.Unwind Std
universe w
variable {σ : Type w} {K V : Type}

namespace STree

/-- Without the mark, beside something else. -/
def er1 {R : Type} (x : STree K V × R) : Tree K V × R := (x.1.erase, x.2)

theorem rotLfC_tracks (c : Cl σ K V) (k : K) (v : V) (lh rh : Int) (l r : STree K V) (s : σ) :
    Tracks c er1 (Tree.rotLf (.node k v lh rh l.erase r.erase))
      (lost (rotLfC c (node false k v lh rh l r) s)) := by
  cases r with
  | nil => exact Tracks.none
  | node sb kb vb blh brh y z =>
    simp only [rotLfC, erase, Tree.rotLf]
    rcases hcl : cloneIf c sb [(kb, vb)] s with ⟨_ | _, s1⟩
    · exact Tracks.done (by simp [er1, erase])
    · intro a' _
      exact ⟨_, _, rfl, bad_of_cloneIf hcl⟩

theorem rotRtC_tracks (c : Cl σ K V) (k : K) (v : V) (lh rh : Int) (l r : STree K V) (s : σ) :
    Tracks c er1 (Tree.rotRt (.node k v lh rh l.erase r.erase))
      (lost (rotRtC c (node false k v lh rh l r) s)) := by
  cases l with
  | nil => exact Tracks.none
  | node sb kb vb blh brh y z =>
    simp only [rotRtC, erase, Tree.rotRt]
    rcases hcl : cloneIf c sb [(kb, vb)] s with ⟨_ | _, s1⟩
    · exact Tracks.done (by simp [er1, erase])
    · intro a' _
      exact ⟨_, _, rfl, bad_of_cloneIf hcl⟩

@[simp] theorem height_shareIf (b : Bool) (t : STree K V) : (t.shareIf b).height = t.height := by
  simp [height]

theorem erase_mk (k : K) (v : V) (l r : STree K V) :
    (mk k v l r).erase = Tree.mk k v l.erase r.erase := rfl

theorem map_bind {A B : Type} (x : Option A) (f : A → B) : x.map f = x.bind (fun a => some (f a)) := by
  cases x <;> rfl

theorem joinRt_node (lk : K) (lv : V) (lh rh : Int) (l x : Tree K V) (k : K) (v : V)
    (right : Tree K V) : Tree.joinRt (.node lk lv lh rh l x) k v right =
    if Tree.height (.node lk lv lh rh l x) > right.height + 1 then
      if x.height ≤ right.height + 1 then
        if Tree.isBal ((Tree.mk k v x right).height - lh) then
          some (.node lk lv lh (Tree.mk k v x right).height l (Tree.mk k v x right))
        else
          (Tree.rotRt (Tree.mk k v x right)).bind fun y =>
            (Tree.rotLf (.node lk lv lh (if y.2 then (Tree.mk k v x right).height - 1
              else (Tree.mk k v x right).height) l y.1)).bind fun z => some z.1
      else
        (Tree.joinRt x k v right).bind fun t1 =>
          if Tree.isBal (t1.height - lh) then some (.node lk lv lh t1.height l t1)
          else (Tree.rotLf (.node lk lv lh t1.height l t1)).bind fun z => some z.1
    else none := by
  rw [Tree.joinRt]
  split
  · split
    · dsimp only
      split
      · rfl
      · rcases Tree.rotRt (Tree.mk k v x right) with _ | ⟨y, b⟩ <;> simp only [map_bind] <;> rfl
    · cases Tree.joinRt x k v right <;> simp only [map_bind] <;> rfl
  · rfl

theorem joinLf_node (rk : K) (rv : V) (lh rh : Int) (x r : Tree K V) (k : K) (v : V)
    (left : Tree K V) : Tree.joinLf left k v (.node rk rv lh rh x r) =
    if Tree.height (.node rk rv lh rh x r) > left.height + 1 then
      if x.height ≤ left.height + 1 then
        if Tree.isBal (rh - (Tree.mk k v left x).height) then
          some (.node rk rv (Tree.mk k v left x).height rh (Tree.mk k v left x) r)
        else
          (Tree.rotLf (Tree.mk k v left x)).bind fun y =>
            (Tree.rotRt (.node rk rv (if y.2 then (Tree.mk k v left x).height - 1
              else (Tree.mk k v left x).height) rh y.1 r)).bind fun z =>
                z.1.bal?.bind fun b => if Tree.isBal b then some z.1 else none
      else
        (Tree.joinLf left k v x).bind fun t1 =>
          if Tree.isBal (rh - t1.height) then some (.node rk rv t1.height rh t1 r)
          else (Tree.rotRt (.node rk rv t1.height rh t1 r)).bind fun z => some z.1
    else none := by
  rw [Tree.joinLf]
  split
  · split
    · dsimp only
      split
      · rfl
      · rcases Tree.rotLf (Tree.mk k v left x) with _ | ⟨y, b⟩
        · rfl
        · simp only [Option.bind_some]
          rcases Tree.rotRt _ with _ | ⟨z, b⟩
          · rfl
          · simp only [Option.bind_some]
            cases z.bal? <;> rfl
    · cases Tree.joinLf left k v x <;> simp only [map_bind] <;> rfl
  · rfl

theorem Tracks.ite {A A' : Type} {c : Cl σ K V} {er : A → A'} {P : Prop} [Decidable P]
    {p1 p2 : Option A'} {x1 x2 : Option (Ends Unit A × σ)} (h1 : P → Tracks c er p1 x1)
    (h2 : ¬ P → Tracks c er p2 x2) :
    Tracks c er (if P then p1 else p2) (if P then x1 else x2) := by
  by_cases h : P
  · rw [if_pos h, if_pos h]; exact h1 h
  · rw [if_neg h, if_neg h]; exact h2 h

theorem joinRtC_tracks (c : Cl σ K V) (k : K) (v : V) (right : STree K V) :
    ∀ (t : STree K V) (up : Bool) (s : σ),
      Tracks c erase (Tree.joinRt t.erase k v right.erase) (joinRtC c k v right up t s)
  | nil, up, s => Tracks.none
  | node sh lk lv lh rh l x, up, s => by
    rw [erase, joinRt_node, joinRtC]
    simp only [height, erase, erase_mk, erase_shareIf]
    refine Tracks.ite (fun _ => Tracks.copy fun s => Tracks.ite (fun _ => Tracks.ite (fun _ => ?_) fun _ => ?_)
      fun _ => ?_) fun _ => Tracks.none
    · exact Tracks.done (by simp [erase, erase_mk])
    · have h := rotRtC_tracks c k v x.erase.height right.erase.height (x.shareIf (sh || up)) right s
      rw [erase_shareIf] at h
      rw [mk, height_shareIf]
      refine h.bind fun y s => ?_
      have h2 := rotLfC_tracks c lk lv lh (if y.2 then (Tree.mk k v x.erase right.erase).height - 1
              else (Tree.mk k v x.erase right.erase).height) (l.shareIf (sh || up)) y.1 s
      rw [erase_shareIf] at h2
      exact h2.bind fun z s => Tracks.done rfl
    · refine (joinRtC_tracks c k v right x (sh || up) s).bind fun t1 s => Tracks.ite (fun _ => ?_) fun _ => ?_
      · exact Tracks.done (by simp [erase])
      · have h2 := rotLfC_tracks c lk lv lh t1.erase.height (l.shareIf (sh || up)) t1 s
        rw [erase_shareIf] at h2
        exact h2.bind fun z s => Tracks.done rfl

theorem joinLfC_tracks (c : Cl σ K V) (k : K) (v : V) (left : STree K V) :
    ∀ (t : STree K V) (up : Bool) (s : σ),
      Tracks c erase (Tree.joinLf left.erase k v t.erase) (joinLfC c k v left up t s)
  | nil, up, s => by
    rw [erase, Tree.joinLf]
    exact Tracks.none
  | node sh rk rv lh rh x r, up, s => by
    rw [erase, joinLf_node, joinLfC]
    simp only [height, erase, erase_mk, erase_shareIf]
    refine Tracks.ite (fun _ => Tracks.copy fun s => Tracks.ite (fun _ => Tracks.ite (fun _ => ?_) fun _ => ?_)
      fun _ => ?_) fun _ => Tracks.none
    · exact Tracks.done (by simp [erase, erase_mk])
    · have h := rotLfC_tracks c k v left.erase.height x.erase.height left (x.shareIf (sh || up)) s
      rw [erase_shareIf] at h
      rw [mk, height_shareIf]
      refine h.bind fun y s => ?_
      have h2 := rotRtC_tracks c rk rv (if y.2 then (Tree.mk k v left.erase x.erase).height - 1
              else (Tree.mk k v left.erase x.erase).height) rh y.1 (r.shareIf (sh || up)) s
      rw [erase_shareIf] at h2
      refine h2.bind fun z s => ?_
      show Tracks c erase (z.1.erase.bal?.bind _) _
      rw [← bal?_erase]
      cases z.1.bal? with
      | none => exact Tracks.none
      | some b => exact Tracks.ite (fun _ => Tracks.done rfl) fun _ => Tracks.none
    · refine (joinLfC_tracks c k v left x (sh || up) s).bind fun t1 s => Tracks.ite (fun _ => ?_) fun _ => ?_
      · exact Tracks.done (by simp [erase])
      · have h2 := rotRtC_tracks c rk rv t1.erase.height rh t1 (r.shareIf (sh || up)) s
        rw [erase_shareIf] at h2
        exact h2.bind fun z s => Tracks.done rfl

theorem joinC_tracks (c : Cl σ K V) (l : STree K V) (k : K) (v : V) (r : STree K V) (s : σ) :
    Tracks c erase (Tree.join l.erase k v r.erase) (joinC c l k v r s) := by
  simp only [Tree.join, joinC, height]
  exact Tracks.ite (fun _ => joinRtC_tracks c k v r l false s) fun _ =>
    Tracks.ite (fun _ => joinLfC_tracks c k v l r false s) fun _ => Tracks.done rfl

theorem rmLeftmostC_tracks (c : Cl σ K V) (t : STree K V) (up : Bool) (s : σ) :
    Tracks c er1 (Tree.rmLeftmost t.erase) (lost (rmLeftmostC c up t s)) := by
  intro x hx
  obtain ⟨q, s', e, hq⟩ := rmLeftmostC_spec c t up s hx
  rw [e]
  rcases q with t' | ⟨t', kv, b⟩
  · exact ⟨_, _, rfl, hq.2⟩
  · exact ⟨_, _, rfl, hq⟩

theorem join2C_tracks (c : Cl σ K V) (l : STree K V) (kv : Option (K × V)) (r : STree K V) (s : σ) :
    Tracks c erase (Tree.join2 l.erase kv r.erase) (join2C c l kv r s) := by
  rcases kv with _ | ⟨k, v⟩
  · cases l with
    | nil => simp only [Tree.join2, join2C, erase, isNil, if_true]; exact Tracks.done rfl
    | node =>
      cases r with
      | nil => simp only [Tree.join2, join2C, erase, isNil, if_true]; exact Tracks.done rfl
      | node sh2 k2 v2 lh2 rh2 l2 r2 =>
        have e : ∀ L : STree K V, L.isNil = false → Tree.join2 L.erase none (node sh2 k2 v2 lh2 rh2 l2 r2).erase =
            (Tree.rmLeftmost (node sh2 k2 v2 lh2 rh2 l2 r2).erase).bind fun x =>
              x.2.1.bind fun y => Tree.join L.erase y.1 y.2 x.1 := by
          intro L hL
          cases L with
          | nil => cases hL
          | node =>
            simp only [erase, Tree.join2]
            rcases Tree.rmLeftmost _ with _ | ⟨r', _ | ⟨k, v⟩, b⟩ <;> rfl
        rw [e _ rfl]
        simp only [join2C, isNil, Bool.false_eq_true, if_false]
        refine (rmLeftmostC_tracks c _ false s).bind fun x s => ?_
        obtain ⟨x, _ | ⟨k, v⟩, b⟩ := x
        · exact Tracks.none
        · exact joinC_tracks c _ k v x s
  · exact joinC_tracks c l k v r s

/-- The parts of a split, without marks. -/
def er3 (x : STree K V × Option (K × V) × STree K V) : Tree K V × Option (K × V) × Tree K V :=
  (x.1.erase, x.2.1, x.2.2.erase)

theorem split_node (p : K → Ordering) (k : K) (v : V) (lh rh : Int) (l r : Tree K V) :
    Tree.split p (.node k v lh rh l r) = match p k with
      | .eq => some (l, some (k, v), r)
      | .lt => (Tree.split p l).bind fun x => (Tree.join x.2.2 k v r).bind fun t =>
          some (x.1, x.2.1, t)
      | .gt => (Tree.split p r).bind fun x => (Tree.join l k v x.1).bind fun t =>
          some (t, x.2.1, x.2.2) := by
  rw [Tree.split]
  cases p k with
  | eq => rfl
  | lt => cases Tree.split p l <;> simp only [map_bind] <;> rfl
  | gt => cases Tree.split p r <;> simp only [map_bind] <;> rfl

theorem splitC_tracks (c : Cl σ K V) (p : K → Ordering) : ∀ (t : STree K V) (up : Bool) (s : σ),
    Tracks c er3 (Tree.split p t.erase) (splitC c p up t s)
  | nil, up, s => by simp only [erase, Tree.split, splitC]; exact Tracks.done rfl
  | node sh k v lh rh l r, up, s => by
    rw [erase, split_node, splitC]
    refine Tracks.copy fun s => ?_
    cases p k with
    | eq => exact Tracks.done (by simp [er3])
    | lt =>
      refine (splitC_tracks c p l (sh || up) s).bind fun x s => ?_
      have h := joinC_tracks c x.2.2 k v (r.shareIf (sh || up)) s
      rw [erase_shareIf] at h
      exact h.bind fun t s => Tracks.done rfl
    | gt =>
      refine (splitC_tracks c p r (sh || up) s).bind fun x s => ?_
      have h := joinC_tracks c (l.shareIf (sh || up)) k v x.1 s
      rw [erase_shareIf] at h
      exact h.bind fun t s => Tracks.done rfl

theorem merge_node [Ord K] (keepL keepR : Bool) (dec : K × V → K × V → Option (K × V))
    (k : K) (v : V) (lh rh : Int) (l r : Tree K V) {t2 : Tree K V} (h2 : t2 ≠ .nil) :
    Tree.merge keepL keepR dec (.node k v lh rh l r) t2 =
      (Tree.split (compare k) t2).bind fun x => (Tree.merge keepL keepR dec l x.1).bind fun l' =>
        (Tree.merge keepL keepR dec r x.2.2).bind fun r' => Tree.join2 l' (match x.2.1 with
            | none => if keepL then some (k, v) else none
            | some e2 => dec (k, v) e2) r' := by
  cases t2 with
  | nil => exact absurd rfl h2
  | node k2 v2 lh2 rh2 l2 r2 =>
    rw [Tree.merge]
    rcases Tree.split _ _ with _ | ⟨x, kv, y⟩
    · rfl
    · simp only [Option.bind_some]
      cases Tree.merge keepL keepR dec l x with
      | none => rfl
      | some l' =>
        simp only [Option.bind_some]
        cases Tree.merge keepL keepR dec r y <;> rfl

theorem mergeC_tracks [Ord K] (c : Cl σ K V) (keepL keepR : Bool)
    (dec : K × V → K × V → Option (K × V)) : ∀ (t1 t2 : STree K V) (up : Bool) (s : σ),
    Tracks c erase (Tree.merge keepL keepR dec t1.erase t2.erase) (mergeC c keepL keepR dec up t1 t2 s)
  | nil, t2, up, s => by
    simp only [erase, Tree.merge, mergeC]
    cases keepR <;> exact Tracks.done rfl
  | node sh k v lh rh l r, t2, up, s => by
    rw [mergeC]
    cases t2 with
    | nil =>
      simp only [isNil, if_true, erase, Tree.merge]
      cases keepL <;> exact Tracks.done (by simp [erase])
    | node sh2 k2 v2 lh2 rh2 l2 r2 =>
      rw [erase, merge_node _ _ _ _ _ _ _ _ _ (by simp [erase])]
      simp only [isNil, Bool.false_eq_true, if_false]
      refine Tracks.copy fun s => ?_
      refine (splitC_tracks c (compare k) _ false s).bind fun x s => ?_
      refine (mergeC_tracks c keepL keepR dec l x.1 (sh || up) s).bind fun l' s => ?_
      refine (mergeC_tracks c keepL keepR dec r x.2.2 (sh || up) s).bind fun r' s => ?_
      exact join2C_tracks c l' _ r' s

/-- The outcome of `retain`, without marks. -/
def erR {τ : Type} (x : τ × STree K V × Nat) : τ × Tree K V × Nat := (x.1, x.2.1.erase, x.2.2)

theorem retain_node {τ : Type} (f : τ → K → V → τ × V × Bool) (t : τ) (k : K) (v : V) (lh rh : Int)
    (l r : Tree K V) : Tree.retain (fun t k v => some (f t k v)) t (.node k v lh rh l r) =
      (Tree.retain (fun t k v => some (f t k v)) t l).bind fun x =>
        (Tree.retain (fun t k v => some (f t k v)) x.1 r).bind fun y =>
          if (f y.1 k v).2.2 then
            (Tree.join x.2.1 k (f y.1 k v).2.1 y.2.1).bind fun z =>
              some ((f y.1 k v).1, z, x.2.2 + y.2.2 + 1)
          else (Tree.join2 x.2.1 none y.2.1).bind fun z =>
              some ((f y.1 k v).1, z, x.2.2 + y.2.2) := by
  rw [Tree.retain]
  rcases Tree.retain _ t l with _ | ⟨t1, l', nl⟩
  · rfl
  · simp only [Option.bind_some]
    rcases Tree.retain _ t1 r with _ | ⟨t2, r', nr⟩
    · rfl
    · simp only [Option.bind_some]
      rcases f t2 k v with ⟨t3, v', _ | _⟩ <;> simp only [map_bind] <;> rfl

theorem retainC_tracks {τ : Type} (c : Cl σ K V) (f : τ → K → V → τ × V × Bool) :
    ∀ (r : STree K V) (t : τ) (s : σ),
      Tracks c erR (Tree.retain (fun t k v => some (f t k v)) t r.erase) (retainC c f r t s)
  | nil, t, s => by simp only [erase, Tree.retain, retainC]; exact Tracks.done rfl
  | node sh k v lh rh l r, t, s => by
    rw [erase, retain_node, retainC]
    refine (retainC_tracks c f l t s).bind fun x s => ?_
    refine (retainC_tracks c f r x.1 s).bind fun y s => ?_
    refine Tracks.copy fun s => Tracks.ite (fun _ => Tracks.copy fun s => ?_) fun _ => ?_
    · exact (joinC_tracks c _ _ _ _ s).bind fun z s => Tracks.done rfl
    · exact (join2C_tracks c _ _ _ s).bind fun z s => Tracks.done rfl

end STree
end Verif.Avl

namespace Verif.Avl.SMap
open Verif.Wild Verif.Unwind Std
universe w
variable {σ : Type w} {K V : Type}

theorem appendC_spec [Ord K] (c : Cl σ K V) {a b : SMap K V} {x : AvlMap K V × AvlMap K V}
    (h : a.erase.append b.erase = some x) (s : σ) :
    ∃ q s', appendC c a b s = some (q, s') ∧ match q with
      | .unwound y => y = (⟨a.len, .nil⟩, ⟨b.len, .nil⟩) ∧ Bad c
      | .done y => (y.1.erase, y.2.erase) = x := by
  obtain ⟨t, ht, rfl⟩ := Option.map_eq_some_iff.1 h
  obtain ⟨q, s', e, hq⟩ := STree.mergeC_tracks c true true (fun _ r => some r) a.root b.root false s t ht
  simp only [appendC, STree.unionC, e]
  cases q with
  | unwound u => exact ⟨_, _, rfl, rfl, hq⟩
  | done t' =>
    dsimp only at hq
    subst hq
    exact ⟨_, _, rfl, rfl⟩

theorem retainC_spec {τ : Type} (c : Cl σ K V) {m : SMap K V} {f : τ → K → V → τ × V × Bool}
    {t t' : τ} {m' : AvlMap K V}
    (h : m.erase.retain (fun t k v => some (f t k v)) t = .done t' m') (s : σ) :
    ∃ q s', m.retainC c f t s = some (q, s') ∧ match q with
      | .unwound y => y = ⟨m.len, .nil⟩ ∧ Bad c
      | .done y => (y.1, y.2.erase) = (t', m') := by
  simp only [AvlMap.retain, erase] at h
  rcases hr : Tree.retain (fun t k v => some (f t k v)) t m.root.erase with _ | ⟨t1, r, n⟩
  · rw [hr] at h; cases h
  · rw [hr] at h
    obtain ⟨q, s', e, hq⟩ := STree.retainC_tracks c f m.root t s _ hr
    simp only [retainC, e]
    cases q with
    | unwound u => exact ⟨_, _, rfl, rfl, hq⟩
    | done y =>
      obtain ⟨t2, r2, n2⟩ := y
      cases hq
      cases h
      exact ⟨_, _, rfl, rfl⟩

theorem splitOffC_spec [Ord K] (c : Cl σ K V) {m : SMap K V} {p : K → Ordering}
    {x : AvlMap K V × AvlMap K V} (h : m.erase.splitOff p = some x) (s : σ) :
    ∃ q s', m.splitOffC c p s = some (q, s') ∧ match q with
      | .unwound y => (y = ⟨m.len, .nil⟩ ∨ y.erase = x.1) ∧ Bad c
      | .done y => (y.1.erase, y.2.erase) = x := by
  simp only [AvlMap.splitOff, erase] at h
  rcases hr : Tree.split p m.root.erase with _ | ⟨lhs, kv, rhs⟩
  · rw [hr] at h; cases h
  · rw [hr] at h
    obtain ⟨q, s', e, hq⟩ := STree.splitC_tracks c p m.root false s _ hr
    simp only [splitOffC, e]
    cases q with
    | unwound u => exact ⟨_, _, rfl, .inl rfl, hq⟩
    | done y =>
      obtain ⟨l2, kv2, r2⟩ := y
      cases hq
      simp only [STree.er3] at h ⊢
      by_cases hlen : m.len < l2.erase.size
      · simp [hlen] at h
      · simp only [hlen, if_false] at h ⊢
        rcases kv2 with _ | ⟨k, v⟩
        · cases h
          exact ⟨_, _, rfl, rfl⟩
        · obtain ⟨z, hz, rfl⟩ := Option.map_eq_some_iff.1 h
          obtain ⟨q, s2, e2, hq⟩ := STree.insC_spec c k v r2 false s' hz
          simp only [e2]
          rcases q with t | ⟨t, o, b⟩
          · exact ⟨_, _, rfl, .inr rfl, hq.2⟩
          · obtain ⟨rfl, -⟩ := hq
            exact ⟨_, _, rfl, rfl⟩

end Verif.Avl.SMap

namespace Verif.BTree.BTreeMap
open Verif.Wild Verif.Unwind Verif.Unwind.BTreeInto Std
universe w
variable {σ : Type w} {K V : Type}

/-- `G pre a` after the entries `pre`; `U pre a` if a panic comes then. -/
theorem feedC_spec {A : Type} (c : Cl σ K V) {f : A → K × V → σ → Option (Ends A A × σ)}
    {G U : List (K × V) → A → Prop} (hGU : ∀ pre a, G pre a → U pre a)
    (hf : ∀ pre a e s, G pre a → ∃ q s', f a e s = some (q, s') ∧ match q with
      | .unwound a' => U pre a' ∧ Bad c
      | .done a' => G (pre ++ [e]) a') :
    ∀ (l pre : List (K × V)) (fuel : Nat) (core : InnerIter (IntoErg K V)) (a : A) (s : σ),
      l.length < fuel → Yields core l → G pre a →
      ∃ q s', feedC c f fuel core a s = some (q, s') ∧ match q with
        | .unwound a' => (∃ l1 e l2, l = l1 ++ e :: l2 ∧ U (pre ++ l1) a') ∧ Bad c
        | .done a' => G (pre ++ l) a' := by
  intro l
  induction l with
  | nil =>
    intro pre fuel core a s hl hy hG
    obtain ⟨fuel, rfl⟩ : ∃ n, fuel = n + 1 := ⟨fuel - 1, by simp at hl; omega⟩
    obtain ⟨core', e, h'⟩ := hy.step true
    have hs := step_spec c (F := []) (B := []) (k := 0) true s (.inl rfl) (.inl rfl) (by simp) e
    simp only [List.nil_append, List.append_nil, Nat.add_zero, step, if_true, Spec.dequeStep] at hs
    rw [feedC]
    revert hs
    rcases nextC intoOps c core s with _ | ⟨it' | ⟨r', it'⟩, s'⟩ <;> simp only <;> intro hs
    · exact absurd hs (by omega)
    · obtain ⟨⟨x, hx, -⟩, -⟩ := hs
      exact absurd hx (by simp)
    · obtain ⟨rfl, -⟩ := hs
      exact ⟨_, _, rfl, by simpa using hG⟩
  | cons e l ih =>
    intro pre fuel core a s hl hy hG
    obtain ⟨fuel, rfl⟩ : ∃ n, fuel = n + 1 := ⟨fuel - 1, by simp at hl; omega⟩
    obtain ⟨core', e', h'⟩ := hy.step true
    have hs := step_spec c (F := []) (B := []) (k := 0) true s (.inl rfl) (.inl rfl) (by simp) e'
    simp only [List.nil_append, List.append_nil, Nat.add_zero, step, if_true, Spec.dequeStep] at hs h'
    rw [feedC]
    revert hs
    rcases nextC intoOps c core s with _ | ⟨it' | ⟨r', it'⟩, s'⟩ <;> simp only <;> intro hs
    · exact absurd hs (by omega)
    · obtain ⟨⟨x, hx, s2, hx2⟩, -⟩ := hs
      exact ⟨_, _, rfl, ⟨[], e, l, rfl, by simpa using hGU _ _ hG⟩, _, s2, hx2⟩
    · obtain ⟨rfl, rfl⟩ := hs
      obtain ⟨q, s2, e2, hq⟩ := hf pre a e s' hG
      simp only [List.head?_cons, e2]
      rcases q with a' | a'
      · exact ⟨_, _, rfl, ⟨[], e, l, rfl, by simpa using hq.1⟩, hq.2⟩
      · obtain ⟨q, s3, e3, h3⟩ := ih (pre ++ [e]) fuel core' a' s2 (by simp at hl; omega) h' hq
        refine ⟨q, s3, e3, ?_⟩
        rcases q with a3 | a3
        · obtain ⟨⟨l1, x, l2, rfl, h4⟩, hb⟩ := h3
          exact ⟨⟨e :: l1, x, l2, rfl, by simpa using h4⟩, hb⟩
        · simpa using h3

theorem intoIter_yields [Ord K] [TransOrd K] {N : Nat} (hN : 1 ≤ N) {m : BTreeMap K V} (w : WF N m)
    (o : Sharing K V) : Yields (m.intoIter o) m.abs := by
  refine ⟨?_, fun ds => intoIter_run_spec hN w o ds⟩
  unfold intoIter intoIterOf
  cases hr : m.root with
  | none => simp [abs, hr]
  | some n => simpa using w.len_eq

end Verif.BTree.BTreeMap
