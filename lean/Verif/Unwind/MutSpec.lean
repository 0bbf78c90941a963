import Verif.Unwind.Mut
import Verif.Unwind.OwnInto
import Verif.Avl.Depth
/-!
# Mutable iteration over an `AvlMap` when `Clone` panics: proofs

All nodes of a tree have positions; nothing here changes the keys or the shape (`skel`), so these
are fixed.  `pos` lists them in order.
-/
set_option linter.unusedVariables false
namespace Verif.Avl
open Verif.Wild Verif.Unwind
universe w
variable {σ : Type w} {K V : Type}

namespace STree

theorem skel_erase (t : STree K V) : t.erase.skel = t.skel := by
  induction t with
  | nil => rfl
  | node sh k v lh rh l r ihl ihr => simp [erase, Tree.skel, skel, ihl, ihr]

/-- The positions of the nodes, in order. -/
def pos : Tree K Unit → List Path
  | .nil => []
  | .node _ _ _ _ l r => (pos l).map (false :: ·) ++ [] :: (pos r).map (true :: ·)

/-- No node on the way to a position is shared, nor the one there. -/
def clear : Path → STree K V → Bool
  | _, nil => false
  | [], node sh .. => !sh
  | d :: p, node sh _ _ _ _ l r => !sh && clear p (if d then r else l)

/-- No node above a position is shared. -/
def above : Path → STree K V → Bool
  | [], _ => true
  | _ :: _, nil => false
  | d :: p, node sh _ _ _ _ l r => !sh && above p (if d then r else l)

theorem above_snoc (d : Bool) : ∀ (p : Path) (t : STree K V), above (p ++ [d]) t = clear p t
  | [], nil => rfl
  | [], node .. => by simp [above, clear]
  | _ :: _, nil => rfl
  | e :: p, node sh _ _ _ _ l r => by
    simp only [List.cons_append, above, clear, above_snoc d p]

theorem subT_of_clear : ∀ {p : Path} {t : STree K V}, clear p t = true →
    ∃ k u lh rh l r, subT p t.skel = .node k u lh rh l r
  | _, nil, h => by simp [clear] at h
  | [], node sh k v lh rh l r, _ => ⟨k, (), lh, rh, l.skel, r.skel, rfl⟩
  | d :: p, node sh k v lh rh l r, h => by
    simp only [clear, Bool.and_eq_true] at h
    obtain ⟨k, u, a, b, x, y, e⟩ := subT_of_clear h.2
    refine ⟨k, u, a, b, x, y, ?_⟩
    cases d <;> exact e

theorem clear_fresh : ∀ {p : Path} (q : Path) {t : STree K V}, clear p t = true →
    clear p (upd fresh q t) = true
  | _, _, nil, h => by simp [clear] at h
  | [], [], node sh k v lh rh l r, h => rfl
  | [], false :: q, node sh k v lh rh l r, h => h
  | [], true :: q, node sh k v lh rh l r, h => h
  | d :: p, [], node sh k v lh rh l r, h => by
    simp only [clear, Bool.and_eq_true, Bool.not_eq_true'] at h
    obtain ⟨rfl, h⟩ := h
    have hs : ∀ t : STree K V, t.shareIf false = t := by intro t; cases t <;> simp [shareIf]
    simp only [upd, fresh, clear, hs, Bool.not_false, Bool.true_and]
    exact h
  | d :: p, e :: q, node sh k v lh rh l r, h => by
    simp only [clear, Bool.and_eq_true] at h
    cases d <;> cases e <;> simp only [upd, clear, Bool.and_eq_true] <;>
      simp only [Bool.false_eq_true, if_false, if_true] at h ⊢ <;>
      first | exact ⟨h.1, clear_fresh q h.2⟩ | exact h

theorem clear_fresh_self : ∀ {p : Path} {t : STree K V}, above p t = true →
    none? (subT p t.skel) = false → clear p (upd fresh p t) = true
  | [], nil, _, h => by simp [subT, skel, none?] at h
  | [], node .., _, _ => rfl
  | _ :: _, nil, h, _ => by simp [above] at h
  | d :: p, node sh k v lh rh l r, h, h2 => by
    simp only [above, Bool.and_eq_true] at h
    cases d <;> simp only [upd, clear, Bool.and_eq_true] <;>
      exact ⟨h.1, clear_fresh_self h.2 h2⟩

theorem clear_poke (g : K → V → V) : ∀ (p q : Path) (t : STree K V),
    clear p (upd (poke g) q t) = clear p t
  | _, [], nil => rfl
  | _, _ :: _, nil => rfl
  | [], [], node .. => rfl
  | _ :: _, [], node .. => rfl
  | [], false :: _, node .. => rfl
  | [], true :: _, node .. => rfl
  | d :: p, e :: q, node sh k v lh rh l r => by
    cases d <;> cases e <;> simp [upd, clear, clear_poke g p q]

@[simp] theorem ent_nil (p : Path) : ent p (nil : STree K V) = none := by
  cases p <;> rfl

theorem ent_cons (d : Bool) (p : Path) (sh k v lh rh) (l r : STree K V) :
    ent (d :: p) (node sh k v lh rh l r) = ent p (if d then r else l) := rfl

@[simp] theorem ent_shareIf (b : Bool) (p : Path) (t : STree K V) :
    ent p (t.shareIf b) = ent p t := by
  cases t with
  | nil => rfl
  | node sh k v lh rh l r => cases p <;> rfl

theorem ent_fresh : ∀ (p q : Path) (t : STree K V), ent p (upd fresh q t) = ent p t
  | _, [], nil => rfl
  | _, _ :: _, nil => rfl
  | [], [], node .. => rfl
  | d :: p, [], node sh k v lh rh l r => by
    simp only [upd, fresh, ent_cons]
    cases d <;> simp
  | [], false :: _, node .. => rfl
  | [], true :: _, node .. => rfl
  | d :: p, e :: q, node sh k v lh rh l r => by
    cases d <;> cases e <;> simp [upd, ent_cons, ent_fresh p q]

theorem ent_poke (g : K → V → V) : ∀ (p q : Path) (t : STree K V),
    ent p (upd (poke g) q t) =
      if p = q then (ent p t).map (fun e => (e.1, g e.1 e.2)) else ent p t
  | p, [], nil => by simp [upd, poke]
  | p, _ :: _, nil => by simp [upd]
  | [], [], node .. => rfl
  | d :: p, [], node .. => rfl
  | [], false :: _, node .. => rfl
  | [], true :: _, node .. => rfl
  | d :: p, e :: q, node sh k v lh rh l r => by
    cases d <;> cases e <;> simp [upd, ent_cons, ent_poke g p q]

/-- The entries are those at the positions. -/
theorem ents_pos (t : STree K V) : t.ents = (pos t.skel).filterMap (fun p => ent p t) := by
  induction t with
  | nil => rfl
  | node sh k v lh rh l r ihl ihr =>
    rw [ents_node, ihl, ihr]
    simp only [skel, pos, List.filterMap_append, List.filterMap_map, List.filterMap_cons]
    rfl

theorem own_pos (t : STree K V) : t.own =
    (pos t.skel).filterMap (fun p => if clear p t then (ent p t).map Prod.fst else none) := by
  induction t with
  | nil => rfl
  | node sh k v lh rh l r ihl ihr =>
    cases sh with
    | true =>
      symm
      simp only [own, if_true]
      rw [List.filterMap_eq_nil_iff]
      intro p _
      cases p <;> simp [clear]
    | false =>
      simp only [own, ihl, ihr, skel, pos, List.filterMap_append, List.filterMap_map,
        List.filterMap_cons]
      rfl

theorem pos_nodup (z : Tree K Unit) : (pos z).Nodup := by
  induction z with
  | nil => exact List.nodup_nil
  | node k u lh rh l r ihl ihr =>
    simp only [pos, List.nodup_append, List.nodup_cons, List.mem_map, List.mem_cons]
    refine ⟨ihl.map (fun a b h => by simpa using h), ⟨by simp, ihr.map (fun a b h => by simpa using h)⟩, ?_⟩
    rintro a ⟨x, _, rfl⟩ b (rfl | ⟨y, _, rfl⟩) <;> simp

/-! ### What is owned -/

theorem cnt_fresh (q : K → Bool) : ∀ {p : Path} {t : STree K V} {sh k v lh rh l r},
    above p t = true → sub p t = node sh k v lh rh l r →
    (upd fresh p t).cnt q = t.cnt q + oneIf q sh k
  | [], t, sh, k, v, lh, rh, l, r, _, h => by
    simp only [sub] at h
    subst h
    cases sh <;> simp [upd, fresh, oneIf]
  | _ :: _, nil, sh, k, v, lh, rh, l, r, h, _ => by simp [above] at h
  | d :: p, node sh' k' v' lh' rh' l' r', sh, k, v, lh, rh, l, r, h, h2 => by
    simp only [above, Bool.and_eq_true, Bool.not_eq_true'] at h
    obtain ⟨rfl, h⟩ := h
    have ih := cnt_fresh q h h2
    cases d <;> simp only [upd, cnt_node, Bool.false_eq_true, if_false, if_true] at ih ⊢ <;> omega

theorem cnt_poke (q : K → Bool) (g : K → V → V) : ∀ (p : Path) (t : STree K V),
    (upd (poke g) p t).cnt q = t.cnt q
  | [], nil => rfl
  | _ :: _, nil => rfl
  | [], node .. => by simp [upd, poke]
  | d :: p, node .. => by cases d <;> simp [upd, cnt_poke q g p]

/-! ### `make_mut` -/

theorem erase_fresh : ∀ (p : Path) (t : STree K V), (upd fresh p t).erase = t.erase
  | [], nil => rfl
  | _ :: _, nil => rfl
  | [], node sh k v lh rh l r => by
    have hs : ∀ (b : Bool) (t : STree K V), (t.shareIf b).erase = t.erase := by
      intro b t; cases t <;> rfl
    simp [upd, fresh, erase, hs]
  | d :: p, node .. => by cases d <;> simp [upd, erase, erase_fresh p]

/-- Nothing has changed but marks, and what was owned still is. -/
structure Kept (t t' : STree K V) : Prop where
  erase : t'.erase = t.erase
  skel : t'.skel = t.skel
  ent : ∀ p, STree.ent p t' = STree.ent p t
  clear : ∀ p, STree.clear p t = true → STree.clear p t' = true

theorem Kept.refl (t : STree K V) : Kept t t := ⟨rfl, rfl, fun _ => rfl, fun _ h => h⟩

theorem Kept.trans {a b d : STree K V} (h : Kept a b) (h' : Kept b d) : Kept a d :=
  ⟨h'.erase.trans h.erase, h'.skel.trans h.skel, fun p => (h'.ent p).trans (h.ent p), fun p x => h'.clear p (h.clear p x)⟩

theorem Kept.ents {a b : STree K V} (h : Kept a b) : b.ents = a.ents := by
  rw [ents_pos, ents_pos, h.skel]
  exact congrArg (List.filterMap · _) (funext h.ent)

theorem makeMutC_kept {c : Cl σ K V} {p : Path} {t t' : STree K V} {s s' : σ} {b : Bool}
    (hp : above p t = true) (h : makeMutC c p t s = (b, t', s')) :
    Kept t t' ∧ (b = false → none? (subT p t.skel) = false → clear p t' = true) := by
  have h0 := skel_makeMutC h
  unfold makeMutC at h
  split at h
  · next h1 =>
    cases h
    refine ⟨.refl t, fun _ h2 => ?_⟩
    rw [← skel_sub, h1] at h2
    simp [skel, none?] at h2
  · split at h <;> cases h
    · exact ⟨.refl t, nofun⟩
    · exact ⟨⟨erase_fresh p t, h0, fun q => ent_fresh q p t, fun q hq => clear_fresh p hq⟩,
        fun _ h2 => clear_fresh_self hp h2⟩

theorem makeMutC_acc {q : K → Bool} {c : Cl σ K V} {p : Path} {t t' : STree K V} {s s' : Nat × σ}
    {b : Bool} (hp : above p t = true) (h : makeMutC (tally q c) p t s = (b, t', s')) :
    t'.cnt q + s.1 = t.cnt q + s'.1 := by
  unfold makeMutC at h
  split at h
  · cases h; rfl
  · next sh k v lh rh l r h1 =>
    split at h <;> rename_i h2 <;> cases h <;> have h3 := cloneIf_tally h2
    · simp at h3; omega
    · rw [cnt_fresh q hp h1]
      simp only [oneIf]
      cases sh <;> simp at h3 ⊢ <;> omega

theorem bad_of_cloneIf {c : Cl σ K V} {sh : Bool} {es : List (K × V)} {s s' : σ}
    (h : cloneIf c sh es s = (true, s')) : Bad c := by
  cases sh
  · simp [cloneIf] at h
  · exact bad_of_eq h

theorem makeMutC_bad {c : Cl σ K V} {p : Path} {t t' : STree K V} {s s' : σ}
    (h : makeMutC c p t s = (true, t', s')) : Bad c := by
  unfold makeMutC at h
  split at h
  · cases h
  · split at h <;> cases h
    exact bad_of_cloneIf (by assumption)

/-- What `openC` leaves. -/
theorem openC_kept {c : Cl σ K V} {p : Path} {d b1 b2 : Bool} {t t' : STree K V} {s s' : σ} {b : Bool}
    (hp : clear p t = true) (h : openC c p d b1 b2 t s = (b, t', s')) :
    Kept t t' ∧ (b = true → Bad c) ∧
      (b = false → ∀ e, (if e = d then b1 else b2) = true → none? (subT (p ++ [e]) t.skel) = false →
        clear (p ++ [e]) t' = true) := by
  unfold openC at h
  have key : ∀ {b1 : Bool} {e t t' s s' b}, clear p t = true →
      (if b1 = true then makeMutC c (p ++ [e]) t s else (false, t, s)) = (b, t', s') →
      Kept t t' ∧ (b = true → Bad c) ∧
        (b = false → b1 = true → none? (subT (p ++ [e]) t.skel) = false →
          clear (p ++ [e]) t' = true) := by
    intro b1 e t t' s s' b hp h
    cases b1 with
    | true =>
      rw [if_pos rfl] at h
      obtain ⟨h1, h2⟩ := makeMutC_kept (by rw [above_snoc]; exact hp) h
      exact ⟨h1, fun hb => makeMutC_bad (by rw [h, hb]), fun hb _ => h2 hb⟩
    | false => cases h; exact ⟨.refl t, nofun, fun _ => nofun⟩
  split at h
  · next h0 =>
    cases h
    obtain ⟨k1, k2, _⟩ := key hp h0
    exact ⟨k1, k2, nofun⟩
  · next t1 s1 h0 =>
    obtain ⟨k1, _, k3⟩ := key hp h0
    obtain ⟨l1, l2, l3⟩ := key (k1.clear _ hp) h
    refine ⟨k1.trans l1, l2, fun hb e he hn => ?_⟩
    by_cases hd : e = d
    · subst hd
      rw [if_pos rfl] at he
      exact l1.clear _ (k3 rfl he hn)
    · rw [if_neg hd] at he
      have : e = !d := by revert hd; cases e <;> cases d <;> simp
      subst this
      exact l3 hb he (by rw [k1.skel]; exact hn)

theorem openC_acc {q : K → Bool} {c : Cl σ K V} {p : Path} {d b1 b2 : Bool} {t t' : STree K V}
    {s s' : Nat × σ} {b : Bool} (hp : clear p t = true)
    (h : openC (tally q c) p d b1 b2 t s = (b, t', s')) : t'.cnt q + s.1 = t.cnt q + s'.1 := by
  unfold openC at h
  have key : ∀ {b1 : Bool} {e t t' s s' b}, clear p t = true →
      (if b1 = true then makeMutC (tally q c) (p ++ [e]) t s else (false, t, s)) = (b, t', s') →
      Kept t t' ∧ t'.cnt q + s.1 = t.cnt q + s'.1 := by
    intro b1 e t t' s s' b hp h
    cases b1 with
    | true =>
      rw [if_pos rfl] at h
      have ha : above (p ++ [e]) t = true := by rw [above_snoc]; exact hp
      exact ⟨(makeMutC_kept ha h).1, makeMutC_acc ha h⟩
    | false => cases h; exact ⟨.refl t, rfl⟩
  split at h
  · next h0 => cases h; exact (key hp h0).2
  · next t1 s1 h0 =>
    obtain ⟨k1, k2⟩ := key hp h0
    have := (key (k1.clear _ hp) h).2
    omega

/-! ### Worklists -/

/-- Where an action leads. -/
def MAct.path : MAct → Path
  | .desc p => p
  | .ret p => p

/-- The positions that an action will yield. -/
def MAct.poss (z : Tree K Unit) : MAct → List Path
  | .desc p => (pos (subT p z)).map (p ++ ·)
  | .ret p => [p]

/-- The positions that a worklist will yield. -/
def ipos (z : Tree K Unit) (w : List MAct) : List Path := w.flatMap (MAct.poss z)

/-- Likewise, for a worklist that is seen from the front or from the back. -/
def iposd (z : Tree K Unit) (front : Bool) (w : List MAct) : List Path :=
  if front then ipos z w else ipos z w.reverse

/-- Everything on the worklist may be changed. -/
def Ours (t : STree K V) (w : List MAct) : Prop := ∀ a ∈ w, clear a.path t = true

theorem ipos_append (z : Tree K Unit) (a b : List MAct) : ipos z (a ++ b) = ipos z a ++ ipos z b := by
  simp [ipos]

theorem ipos_cons (z : Tree K Unit) (a : MAct) (b : List MAct) :
    ipos z (a :: b) = a.poss z ++ ipos z b := rfl

theorem ipos_nil (z : Tree K Unit) : ipos z [] = [] := rfl

theorem iposd_cons (z : Tree K Unit) (front : Bool) (a : MAct) (w : List MAct) :
    iposd z front (a :: w) =
      if front then a.poss z ++ iposd z front w else iposd z front w ++ a.poss z := by
  cases front <;> simp [iposd, ipos_cons, ipos_append, ipos_nil]

theorem none?_poss {z : Tree K Unit} {p : Path} (h : none? (subT p z) = true) :
    (MAct.desc p).poss z = [] := by
  simp only [MAct.poss]
  cases hz : subT p z with
  | nil => rfl
  | node => rw [hz] at h; simp [none?] at h

/-- The positions of what is wanted of a child. -/
theorem iposd_pushM (z : Tree K Unit) (front b : Bool) (p : Path) (w : List MAct) :
    iposd z front (pushM z b p w) =
      if front then (if b then (MAct.desc p).poss z else []) ++ iposd z front w
      else iposd z front w ++ (if b then (MAct.desc p).poss z else []) := by
  unfold pushM
  cases b with
  | false => cases front <;> simp
  | true =>
    cases hn : none? (subT p z) with
    | false => simp [iposd_cons]
    | true => simp [none?_poss hn]

theorem iposd_pushR (z : Tree K Unit) (front b : Bool) (p : Path) (w : List MAct) :
    iposd z front (pushR b p w) =
      if front then (if b then [p] else []) ++ iposd z front w
      else iposd z front w ++ (if b then [p] else []) := by
  unfold pushR
  cases b with
  | false => cases front <;> simp
  | true => simp [iposd_cons, MAct.poss]

theorem iposd_parts (z : Tree K Unit) (front : Bool) (p : Path) (x : Bool × Bool × Bool)
    (w : List MAct) :
    let m := (if x.1 then (MAct.desc (p ++ [false])).poss z else []) ++
      ((if x.2.1 then [p] else []) ++ (if x.2.2 then (MAct.desc (p ++ [true])).poss z else []))
    iposd z front (parts z front p x w) =
      if front then m ++ iposd z front w else iposd z front w ++ m := by
  unfold parts
  cases front <;> simp [iposd_pushM, iposd_pushR]

theorem poss_desc {z : Tree K Unit} {p : Path} {k : K} {u : Unit} {lh rh : Int} {l r : Tree K Unit}
    (hp : subT p z = .node k u lh rh l r) :
    (MAct.desc p).poss z = (MAct.desc (p ++ [false])).poss z ++ ([p] ++
      (MAct.desc (p ++ [true])).poss z) := by
  have hl : subT (p ++ [false]) z = l := by rw [subT_snoc, hp]; rfl
  have hr : subT (p ++ [true]) z = r := by rw [subT_snoc, hp]; rfl
  simp only [MAct.poss, hl, hr, hp, pos]
  simp
  rfl

theorem parts_sublist {z : Tree K Unit} {p : Path} {k : K} {u : Unit} {lh rh : Int}
    {l r : Tree K Unit} (hp : subT p z = .node k u lh rh l r) (front : Bool) (x) (w) :
    (iposd z front (parts z front p x w)).Sublist (iposd z front (.desc p :: w)) := by
  rw [iposd_parts, iposd_cons, poss_desc hp]
  have : ((if x.1 then (MAct.desc (p ++ [false])).poss z else []) ++
      ((if x.2.1 then [p] else []) ++ (if x.2.2 then (MAct.desc (p ++ [true])).poss z else []))).Sublist
      ((MAct.desc (p ++ [false])).poss z ++ ([p] ++ (MAct.desc (p ++ [true])).poss z)) := by
    refine List.Sublist.append ?_ (List.Sublist.append ?_ ?_) <;> split <;> simp
  split
  · exact this.append (List.Sublist.refl _)
  · exact (List.Sublist.refl _).append this

theorem parts_all {z : Tree K Unit} {p : Path} {k : K} {u : Unit} {lh rh : Int}
    {l r : Tree K Unit} (hp : subT p z = .node k u lh rh l r) (front : Bool) (w) :
    iposd z front (parts z front p (true, true, true) w) = iposd z front (.desc p :: w) := by
  rw [iposd_parts, iposd_cons, poss_desc hp]
  rfl

theorem mem_parts {z : Tree K Unit} {front : Bool} {p : Path} {x : Bool × Bool × Bool} {w : List MAct}
    {a : MAct} (h : a ∈ parts z front p x w) :
    a ∈ w ∨ a = .ret p ∨
      ∃ e, a = .desc (p ++ [e]) ∧ (if e then x.2.2 else x.1) = true ∧
        none? (subT (p ++ [e]) z) = false := by
  have hM : ∀ {b p w}, a ∈ pushM z b p w → a ∈ w ∨ (a = .desc p ∧ b = true ∧
      none? (subT p z) = false) := by
    intro b p w h
    unfold pushM at h
    split at h
    · next h1 =>
      simp only [Bool.and_eq_true, Bool.not_eq_true'] at h1
      rcases List.mem_cons.1 h with h | h
      · exact Or.inr ⟨h, h1⟩
      · exact Or.inl h
    · exact Or.inl h
  have hR : ∀ {b w}, a ∈ pushR b p w → a ∈ w ∨ a = .ret p := by
    intro b w h
    unfold pushR at h
    split at h
    · rcases List.mem_cons.1 h with h | h
      · exact Or.inr h
      · exact Or.inl h
    · exact Or.inl h
  unfold parts at h
  split at h
  · rcases hM h with h | h
    · rcases hR h with h | h
      · rcases hM h with h | h
        · exact Or.inl h
        · exact Or.inr (Or.inr ⟨true, by simpa using h⟩)
      · exact Or.inr (Or.inl h)
    · exact Or.inr (Or.inr ⟨false, by simpa using h⟩)
  · rcases hM h with h | h
    · rcases hR h with h | h
      · rcases hM h with h | h
        · exact Or.inl h
        · exact Or.inr (Or.inr ⟨false, by simpa using h⟩)
      · exact Or.inr (Or.inl h)
    · exact Or.inr (Or.inr ⟨true, by simpa using h⟩)

/-- What `digC` leaves. -/
theorem digC_spec (c : Cl σ K V) (front d : Bool) (sel : K → Bool × Bool × Bool) :
    ∀ (w : List MAct) (t : STree K V) (s : σ), Ours t w →
      ∀ b w' t' s', digC c front d sel w t s = (b, w', t', s') →
        Kept t t' ∧ Ours t' w' ∧ (b = true → Bad c) ∧
        (iposd t.skel front w').Sublist (iposd t.skel front w) ∧
        (b = false → (w' = [] ∨ ∃ p w1, w' = .ret p :: w1) ∧
          ((∀ k, sel k = (true, true, true)) → iposd t.skel front w' = iposd t.skel front w)) := by
  intro w t s
  fun_induction digC c front d sel w t s with
  | case1 t s =>
    intro hw b w' t' s' e
    cases e
    exact ⟨.refl t, hw, nofun, .refl _, fun _ => ⟨Or.inl rfl, fun _ => rfl⟩⟩
  | case2 p w t s =>
    intro hw b w' t' s' e
    cases e
    exact ⟨.refl t, hw, nofun, .refl _, fun _ => ⟨Or.inr ⟨_, _, rfl⟩, fun _ => rfl⟩⟩
  | case3 p w t s hp =>
    intro hw
    obtain ⟨k, u, lh, rh, l, r, e⟩ := subT_of_clear (hw (.desc p) (by simp))
    simp only [MAct.path] at e
    rw [hp] at e
    cases e
  | case4 p w t s k u lh rh l r hp t1 s1 ho =>
    intro hw b w' t' s' e
    cases e
    obtain ⟨k1, k2, k3⟩ := openC_kept (hw (.desc p) (by simp)) ho
    refine ⟨k1, fun a ha => k1.clear _ (hw a (by simp [ha])), fun _ => k2 rfl, ?_, nofun⟩
    rw [iposd_cons]
    split <;> simp
  | case5 p w t s k u lh rh l r hp t1 s1 ho ih =>
    intro hw b w' t' s' e
    obtain ⟨k1, k2, k3⟩ := openC_kept (hw (.desc p) (by simp)) ho
    have hw1 : Ours t1 (parts t.skel front p (sel k) w) := by
      intro a ha
      rcases mem_parts ha with ha | rfl | ⟨e, rfl, he, hn⟩
      · exact k1.clear _ (hw a (by simp [ha]))
      · exact k1.clear _ (hw (.desc p) (by simp))
      · refine k3 rfl e ?_ hn
        revert he
        cases e <;> cases d <;> simp
    obtain ⟨i1, i2, i3, i4, i5⟩ := ih hw1 b w' t' s' e
    rw [k1.skel] at i4 i5
    refine ⟨k1.trans i1, i2, i3, i4.trans (parts_sublist hp front _ _), fun hb => ⟨(i5 hb).1, fun hs => ?_⟩⟩
    rw [(i5 hb).2 hs, hs k]
    exact parts_all hp front w

theorem digC_acc {q : K → Bool} (c : Cl σ K V) (front d : Bool) (sel : K → Bool × Bool × Bool) :
    ∀ (w : List MAct) (t : STree K V) (s : Nat × σ), Ours t w →
      ∀ b w' t' s', digC (tally q c) front d sel w t s = (b, w', t', s') →
        t'.cnt q + s.1 = t.cnt q + s'.1 := by
  intro w t s
  fun_induction digC (tally q c) front d sel w t s with
  | case1 t s => intro hw b w' t' s' e; cases e; rfl
  | case2 p w t s => intro hw b w' t' s' e; cases e; rfl
  | case3 p w t s hp => intro hw b w' t' s' e; cases e; rfl
  | case4 p w t s k u lh rh l r hp t1 s1 ho =>
    intro hw b w' t' s' e
    cases e
    exact openC_acc (hw (.desc p) (by simp)) ho
  | case5 p w t s k u lh rh l r hp t1 s1 ho ih =>
    intro hw b w' t' s' e
    obtain ⟨k1, k2, k3⟩ := openC_kept (hw (.desc p) (by simp)) ho
    have hw1 : Ours t1 (parts t.skel front p (sel k) w) := by
      intro a ha
      rcases mem_parts ha with ha | rfl | ⟨e, rfl, he, hn⟩
      · exact k1.clear _ (hw a (by simp [ha]))
      · exact k1.clear _ (hw (.desc p) (by simp))
      · refine k3 rfl e ?_ hn
        revert he
        cases e <;> cases d <;> simp
    have h1 := ih hw1 b w' t' s' e
    have h2 := openC_acc (hw (.desc p) (by simp)) ho
    omega

/-! ### Calls -/

/-- What a call leaves. -/
theorem step_spec (c : Cl σ K V) (g : K → V → V) (front : Bool) (it : MIt K V) (s : σ)
    (hw : Ours it.root it.work) (hl : (ipos it.root.skel it.work).length ≤ it.len) :
    ∃ r s', it.step c g front s = some (r, s') ∧ match r with
      | .unwound it' => Kept it.root it'.root ∧ Ours it'.root it'.work ∧ Bad c ∧ it'.len = it.len ∧
          (ipos it.root.skel it'.work).Sublist (ipos it.root.skel it.work)
      | .done (none, it') => Kept it.root it'.root ∧ it'.work = [] ∧ it'.len = it.len ∧
          ipos it.root.skel it.work = []
      | .done (some e, it') => ∃ p, it'.root.skel = it.root.skel ∧ Ours it'.root it'.work ∧
          it'.len + 1 = it.len ∧
          ipos it.root.skel it.work = (if front then p :: ipos it.root.skel it'.work
            else ipos it.root.skel it'.work ++ [p]) ∧
          ent p it.root = some e ∧
          (∀ q, ent q it'.root = if q = p then (ent q it.root).map (fun e => (e.1, g e.1 e.2))
            else ent q it.root) ∧
          (∀ q, clear q it.root = true → clear q it'.root = true) ∧ clear p it'.root = true := by
  have hback : ∀ w, iposd it.root.skel front (if front = true then w else w.reverse) =
      ipos it.root.skel w := by
    intro w; cases front <;> simp [iposd]
  have hback2 : ∀ w, iposd it.root.skel front w =
      ipos it.root.skel (if front = true then w else w.reverse) := by
    intro w; cases front <;> simp [iposd]
  have hO : Ours it.root (if front = true then it.work else it.work.reverse) := by
    intro a ha; refine hw a ?_; revert ha; cases front <;> simp
  unfold MIt.step
  dsimp only
  rcases hd : digC c front false selAll (if front = true then it.work else it.work.reverse) it.root s
    with ⟨b, w, t, s1⟩
  obtain ⟨h1, h2, h3, h4, h5⟩ := digC_spec c front false selAll _ _ s hO b w t s1 hd
  rw [hback] at h4 h5
  rw [hback2] at h4 h5
  cases b with
  | true =>
    refine ⟨_, _, rfl, h1, ?_, h3 rfl, rfl, h4⟩
    intro a ha; refine h2 a ?_; revert ha; cases front <;> simp
  | false =>
    obtain ⟨h6, h7⟩ := h5 rfl
    have h7 := h7 (fun _ => rfl)
    rcases h6 with rfl | ⟨p, w1, rfl⟩
    · refine ⟨_, _, rfl, h1, rfl, rfl, ?_⟩
      rw [← h7]; cases front <;> rfl
    · have hc : clear p t = true := h2 (.ret p) (by simp)
      have he : ∃ e, ent p t = some e := by
        obtain ⟨k, u, lh, rh, l, r, e⟩ := subT_of_clear hc
        rw [← skel_sub] at e
        unfold ent
        cases hs : sub p t with
        | nil => rw [hs] at e; cases e
        | node => exact ⟨_, rfl⟩
      obtain ⟨e, he⟩ := he
      have h8 : ipos it.root.skel it.work = (if front then
          p :: ipos it.root.skel (if front = true then w1 else w1.reverse)
            else ipos it.root.skel (if front = true then w1 else w1.reverse) ++ [p]) := by
        rw [← h7]
        cases front <;> simp [ipos_cons, ipos_append, ipos_nil, MAct.poss]
      have h9 : it.len ≠ 0 := by
        rw [h8] at hl
        intro h0
        rw [h0] at hl
        cases front <;> simp at hl
      refine ⟨.done (some e, ⟨upd (poke g) p t, if front = true then w1 else w1.reverse, it.len - 1⟩),
        s1, ?_, p, ?_, ?_, ?_, h8, ?_, ?_, ?_, ?_⟩
      · dsimp only
        rw [if_neg h9, he]
      · exact (skel_upd (skel_poke g) p t).trans h1.skel
      · intro a ha
        rw [clear_poke]
        refine h2 a ?_
        revert ha
        cases front <;> simp +contextual
      · dsimp only; omega
      · rw [← h1.ent]; exact he
      · intro q
        rw [ent_poke, h1.ent]
      · intro q hq
        rw [clear_poke]
        exact h1.clear q hq
      · rw [clear_poke]; exact hc

theorem step_acc {q : K → Bool} (c : Cl σ K V) (g : K → V → V) (front : Bool) (it : MIt K V)
    (s s' : Nat × σ) (r) (hw : Ours it.root it.work) (h : it.step (tally q c) g front s = some (r, s')) :
    (match r with | .unwound it' => it'.root.cnt q | .done (_, it') => it'.root.cnt q) + s.1 =
      it.root.cnt q + s'.1 := by
  have hO : Ours it.root (if front = true then it.work else it.work.reverse) := by
    intro a ha; refine hw a ?_; revert ha; cases front <;> simp
  unfold MIt.step at h
  dsimp only at h
  rcases hd : digC (tally q c) front false selAll (if front = true then it.work else it.work.reverse)
    it.root s with ⟨b, w, t, s1⟩
  have ha := digC_acc c front false selAll _ _ s hO b w t s1 hd
  rw [hd] at h
  split at h
  · next e => cases e; cases h; exact ha
  · next e =>
    cases e
    split at h
    · cases h
    · split at h <;> cases h
      simp only [cnt_poke]
      exact ha
  · next e => cases e; cases h; exact ha

/-- Nothing on a worklist is there twice. -/
theorem nodup_filter {α : Type} {l ys : List α} (h : ys.Sublist l) (hn : l.Nodup) {Y : α → Bool}
    (hY : ∀ x ∈ l, Y x = true ↔ x ∈ ys) : l.filter Y = ys := by
  induction h with
  | slnil => rfl
  | @cons ys l a h ih =>
    have ha : a ∉ ys := fun hm => (List.nodup_cons.1 hn).1 (h.mem hm)
    rw [List.filter_cons, if_neg (by rw [hY a (by simp)]; exact ha)]
    exact ih (List.nodup_cons.1 hn).2 (fun x hx => hY x (by simp [hx]))
  | @cons_cons ys l a h ih =>
    rw [List.filter_cons, if_pos (by rw [hY a (by simp)]; simp)]
    congr 1
    refine ih (List.nodup_cons.1 hn).2 (fun x hx => ?_)
    have : x ≠ a := fun e => (List.nodup_cons.1 hn).1 (e ▸ hx)
    rw [hY x (by simp [hx])]
    simp [this]

end STree
end Verif.Avl

namespace Verif.Unwind
variable {α : Type}

/-- What the calls of `next` (`d = true`) or `next_back` have yielded, in the order of the calls. -/
def gotten (d : Bool) : List Bool → List (Ev α) → List α
  | e :: ds, x :: xs => (if e = d then x.item.toList else []) ++ gotten d ds xs
  | _, _ => []

/-- `Clone` panicked in no call. -/
def quiet (xs : List (Ev α)) : Bool := xs.all fun x => match x with | .unwound _ => false | _ => true

end Verif.Unwind

namespace Verif.Avl
open Verif.Wild Verif.Unwind
universe w
variable {σ : Type w} {K V : Type}
namespace STree

/-- What a schedule of calls leaves; `F` and `B` are the positions yielded from the front and from
the back. -/
theorem run_spec (c : Cl σ K V) (g : K → V → V) : ∀ (ds : List Bool) (it : MIt K V) (s : σ),
    Ours it.root it.work → (ipos it.root.skel it.work).length ≤ it.len →
    (ipos it.root.skel it.work).Nodup →
    ∃ it' s' F B, finish (MIt.step c g) ds it s = some (it', s') ∧
      it'.root.skel = it.root.skel ∧
      (F ++ ipos it.root.skel it'.work ++ B.reverse).Sublist (ipos it.root.skel it.work) ∧
      gotten true ds (evs MIt.len (MIt.step c g) ds it s) =
        F.filterMap (fun p => ent p it.root) ∧
      gotten false ds (evs MIt.len (MIt.step c g) ds it s) =
        B.filterMap (fun p => ent p it.root) ∧
      (∀ q, ent q it'.root = if q ∈ F ++ B then (ent q it.root).map (fun e => (e.1, g e.1 e.2))
        else ent q it.root) ∧
      (∀ q, clear q it.root = true → clear q it'.root = true) ∧
      (∀ q ∈ F ++ B, clear q it'.root = true) ∧
      it'.len + (F ++ B).length = it.len ∧
      (quiet (evs MIt.len (MIt.step c g) ds it s) = true →
        (F ++ B).length = min ds.length (ipos it.root.skel it.work).length ∧
        F ++ ipos it.root.skel it'.work ++ B.reverse = ipos it.root.skel it.work) ∧
      (quiet (evs MIt.len (MIt.step c g) ds it s) = false → Bad c) := by
  intro ds
  induction ds with
  | nil =>
    intro it s hw hl hn
    exact ⟨it, s, [], [], rfl, rfl, by simp, rfl, rfl, by simp, fun _ h => h, by simp, by simp,
      by simp, by simp [evs, quiet]⟩
  | cons d ds ih =>
    intro it s hw hl hn
    obtain ⟨r, s1, e, hr⟩ := step_spec c g d it s hw hl
    match r, hr with
    | .unwound it1, hr =>
      obtain ⟨h1, h2, h3, h4, h5⟩ := hr
      have hs := h1.skel
      obtain ⟨it', s', F, B, i1, i2, i3, i4, i5, i6, i7, i8, i9, i10, i11⟩ := ih it1 s1 h2
        (by rw [hs, h4]; exact Nat.le_trans h5.length_le hl) (by rw [hs]; exact hn.sublist h5)
      rw [hs] at i2 i3
      refine ⟨it', s', F, B, ?_, i2, i3.trans h5, ?_, ?_, ?_, fun q hq => i7 q (h1.clear q hq), i8,
        by rw [← h4]; exact i9, ?_, fun _ => h3⟩
      · simp only [finish, e]; exact i1
      · simp only [evs, e, gotten, Ev.item, i4, h1.ent]; simp
      · simp only [evs, e, gotten, Ev.item, i5, h1.ent]; simp
      · intro q; rw [i6, h1.ent]
      · simp only [evs, e, quiet, List.all_cons]; simp
    | .done (none, it1), hr =>
      obtain ⟨h1, h2, h3, h4⟩ := hr
      have hs := h1.skel
      obtain ⟨it', s', F, B, i1, i2, i3, i4, i5, i6, i7, i8, i9, i10, i11⟩ := ih it1 s1
        (by rw [h2]; intro a ha; cases ha) (by rw [h2]; simp [ipos_nil]) (by rw [h2]; simp [ipos_nil])
      rw [hs, h2, ipos_nil] at i3 i10
      have hF := List.sublist_nil.1 i3
      simp only [List.append_eq_nil_iff, List.reverse_eq_nil_iff] at hF
      refine ⟨it', s', F, B, ?_, i2.trans hs, ?_, ?_, ?_, ?_, fun q hq => i7 q (h1.clear q hq), i8,
        by rw [← h3]; exact i9, ?_, ?_⟩
      · simp only [finish, e]; exact i1
      · rw [h4]; exact i3
      · simp only [evs, e, gotten, Ev.item, i4, h1.ent]; simp
      · simp only [evs, e, gotten, Ev.item, i5, h1.ent]; simp
      · intro q; rw [i6, h1.ent]
      · intro _; rw [h4, hF.1.1, hF.2, hF.1.2]; simp
      · intro hq; refine i11 ?_
        simpa only [evs, e, quiet, List.all_cons, Bool.true_and] using hq
    | .done (some x, it1), hr =>
      obtain ⟨p, hs, h2, h3, h4, h5, h6, h7, h8⟩ := hr
      have hpn : p ∉ ipos it.root.skel it1.work ∧ (ipos it.root.skel it1.work).Nodup ∧
          (ipos it.root.skel it1.work).length + 1 = (ipos it.root.skel it.work).length := by
        rw [h4] at hn ⊢
        cases d
        · simp only [Bool.false_eq_true, if_false, List.nodup_append, List.mem_singleton] at hn ⊢
          exact ⟨fun hm => hn.2.2 p hm p rfl rfl, hn.1, by simp⟩
        · simp only [if_true, List.nodup_cons] at hn ⊢
          exact ⟨hn.1, hn.2, by simp⟩
      obtain ⟨hpn, hn1, hlen⟩ := hpn
      obtain ⟨it', s', F, B, i1, i2, i3, i4, i5, i6, i7, i8, i9, i10, i11⟩ := ih it1 s1 h2
        (by rw [hs]; omega) (by rw [hs]; exact hn1)
      rw [hs] at i2 i3 i10
      have hFp : ∀ q ∈ F ++ B, q ≠ p := by
        intro q hq hqp
        subst hqp
        refine hpn (i3.mem ?_)
        simp only [List.mem_append, List.mem_reverse] at hq ⊢
        rcases hq with hq | hq
        · exact Or.inl (Or.inl hq)
        · exact Or.inr hq
      have hF : F.filterMap (fun p => ent p it1.root) = F.filterMap (fun p => ent p it.root) := by
        apply List.filterMap_congr
        intro q hq
        rw [h6, if_neg (hFp q (by simp [hq]))]
      have hB : B.filterMap (fun p => ent p it1.root) = B.filterMap (fun p => ent p it.root) := by
        apply List.filterMap_congr
        intro q hq
        rw [h6, if_neg (hFp q (by simp [hq]))]
      have hent : ∀ q, ent q it'.root = if q = p ∨ q ∈ F ++ B then
          (ent q it.root).map (fun e => (e.1, g e.1 e.2)) else ent q it.root := by
        intro q
        rw [i6]
        by_cases hq : q ∈ F ++ B
        · rw [if_pos hq, if_pos (Or.inr hq), h6, if_neg (hFp q hq)]
        · rw [if_neg hq, h6]
          by_cases hqp : q = p
          · rw [if_pos hqp, if_pos (Or.inl hqp)]
          · rw [if_neg hqp, if_neg (by simp [hqp]; simpa using hq)]
      have hquiet : quiet (evs MIt.len (MIt.step c g) (d :: ds) it s) =
          quiet (evs MIt.len (MIt.step c g) ds it1 s1) := by
        simp only [evs, e, quiet, List.all_cons, Bool.true_and]
      cases d
      · refine ⟨it', s', F, p :: B, ?_, i2, ?_, ?_, ?_, ?_, fun q hq => i7 q (h7 q hq), ?_, ?_, ?_, ?_⟩
        · simp only [finish, e]; exact i1
        · rw [h4]
          simp only [Bool.false_eq_true, if_false, List.reverse_cons, ← List.append_assoc]
          exact i3.append (List.Sublist.refl _)
        · simp only [evs, e, gotten, Ev.item, i4, hF]; simp
        · simp only [evs, e, gotten, Ev.item, i5, hB, List.filterMap_cons, h5]; simp
        · intro q
          rw [hent]
          simp only [List.mem_append, List.mem_cons]
          congr 1
          rw [eq_iff_iff]
          constructor <;> intro h <;> rcases h with h | h | h <;> simp [h]
        · intro q hq
          simp only [List.mem_append, List.mem_cons] at hq
          rcases hq with hq | rfl | hq
          · exact i8 q (by simp [hq])
          · exact i7 _ h8
          · exact i8 q (by simp [hq])
        · simp only [List.length_append, List.length_cons] at i9 ⊢; omega
        · intro hq
          obtain ⟨j1, j2⟩ := i10 (hquiet ▸ hq)
          refine ⟨?_, ?_⟩
          · simp only [List.length_append, List.length_cons] at j1 ⊢; omega
          · rw [h4, ← j2]; simp
        · intro hq; exact i11 (hquiet ▸ hq)
      · refine ⟨it', s', p :: F, B, ?_, i2, ?_, ?_, ?_, ?_, fun q hq => i7 q (h7 q hq), ?_, ?_, ?_, ?_⟩
        · simp only [finish, e]; exact i1
        · rw [h4]
          simp only [if_true, List.cons_append]
          exact i3.cons_cons p
        · simp only [evs, e, gotten, Ev.item, i4, hF, List.filterMap_cons, h5]; simp
        · simp only [evs, e, gotten, Ev.item, i5, hB]; simp
        · intro q
          rw [hent]
          simp only [List.cons_append, List.mem_cons]
        · intro q hq
          simp only [List.cons_append, List.mem_cons] at hq
          rcases hq with rfl | hq
          · exact i7 _ h8
          · exact i8 q hq
        · simp only [List.cons_append, List.length_cons] at i9 ⊢; omega
        · intro hq
          obtain ⟨j1, j2⟩ := i10 (hquiet ▸ hq)
          refine ⟨?_, ?_⟩
          · simp only [List.cons_append, List.length_cons] at j1 ⊢; omega
          · rw [h4, ← j2]; simp
        · intro hq; exact i11 (hquiet ▸ hq)

theorem finish_acc {q : K → Bool} (c : Cl σ K V) (g : K → V → V) : ∀ (ds : List Bool) (it : MIt K V)
    (s s' : Nat × σ) (it' : MIt K V), Ours it.root it.work →
    (ipos it.root.skel it.work).length ≤ it.len →
    finish (MIt.step (tally q c) g) ds it s = some (it', s') →
    it'.root.cnt q + s.1 = it.root.cnt q + s'.1 := by
  intro ds
  induction ds with
  | nil => intro it s s' it' _ _ e; cases e; rfl
  | cons d ds ih =>
    intro it s s' it' hw hl e
    obtain ⟨r, s1, e1, hr⟩ := step_spec (tally q c) g d it s hw hl
    have ha := step_acc c g d it s s1 r hw e1
    simp only [finish, e1] at e
    match r, hr with
    | .unwound it1, hr =>
      obtain ⟨h1, h2, h3, h4, h5⟩ := hr
      have := ih it1 s1 s' it' h2 (by rw [h1.skel, h4]; exact Nat.le_trans h5.length_le hl) e
      simp only at ha
      omega
    | .done (none, it1), hr =>
      obtain ⟨h1, h2, h3, h4⟩ := hr
      have := ih it1 s1 s' it' (by rw [h2]; intro a ha; cases ha) (by rw [h2]; simp [ipos_nil]) e
      simp only at ha
      omega
    | .done (some x, it1), hr =>
      obtain ⟨p, hs, h2, h3, h4, h5, h6, h7, h8⟩ := hr
      have := ih it1 s1 s' it' h2 (by
        rw [hs]; rw [h4] at hl; cases d <;> simp at hl <;> omega) e
      simp only at ha
      omega

/-! ### From positions to entries -/

theorem filterMap_zipWith {α β : Type} (f : α → Option β) (u : β → β) (Y : α → Bool) : ∀ (l : List α),
    (∀ x ∈ l, (f x).isSome) →
    l.filterMap (fun x => if Y x then (f x).map u else f x) =
      List.zipWith (fun e b => if b = true then u e else e) (l.filterMap f) (l.map Y) ∧
    (l.filterMap f).length = l.length ∧
    (((l.filterMap f).zip (l.map Y)).filter (·.2)).map (·.1) = (l.filter Y).filterMap f
  | [], _ => ⟨rfl, rfl, rfl⟩
  | x :: l, h => by
    obtain ⟨i1, i2, i3⟩ := filterMap_zipWith f u Y l (fun y hy => h y (by simp [hy]))
    obtain ⟨e, he⟩ := Option.isSome_iff_exists.1 (h x (by simp))
    refine ⟨?_, ?_, ?_⟩
    · cases hY : Y x <;> simp [he, hY, i1]
    · simp [he, i2]
    · cases hY : Y x <;> simp [he, hY, i3]

theorem ent_some : ∀ {p : Path} {t : STree K V}, p ∈ pos t.skel → (ent p t).isSome
  | p, nil, h => by simp [skel, pos] at h
  | p, node sh k v lh rh l r, h => by
    simp only [skel, pos, List.mem_append, List.mem_map, List.mem_cons] at h
    rcases h with ⟨q, hq, rfl⟩ | rfl | ⟨q, hq, rfl⟩
    · rw [ent_cons]; exact ent_some hq
    · rfl
    · rw [ent_cons]; exact ent_some hq

theorem sublist_filterMap {α β : Type} (f : α → Option β) (u : α → Option β) : ∀ (l : List α),
    (∀ x ∈ l, f x = u x ∨ f x = none) → (l.filterMap f).Sublist (l.filterMap u)
  | [], _ => .slnil
  | x :: l, h => by
    have ih := sublist_filterMap f u l (fun y hy => h y (by simp [hy]))
    rcases h x (by simp) with h | h
    · cases hu : u x <;> simp [h, hu, ih]
    · cases hu : u x
      · simp [h, hu, ih]
      · simp only [List.filterMap_cons, h, hu]
        exact ih.cons _

/-- What a schedule of calls leaves, in terms of the entries. -/
theorem run_ents (c : Cl σ K V) (g : K → V → V) (ds : List Bool) (it : MIt K V) (s : σ)
    (hw : Ours it.root it.work) (hp : (ipos it.root.skel it.work).Sublist (pos it.root.skel))
    (hl : (ipos it.root.skel it.work).length ≤ it.len) :
    let E := evs MIt.len (MIt.step c g) ds it s
    let R := (ipos it.root.skel it.work).filterMap (fun p => ent p it.root)
    let Y := gotten true ds E ++ (gotten false ds E).reverse
    ∃ it' s' marks, finish (MIt.step c g) ds it s = some (it', s') ∧
      it'.root.skel = it.root.skel ∧
      marks.length = it.root.ents.length ∧
      it'.root.ents = List.zipWith (fun e b => if b = true then (e.1, g e.1 e.2) else e)
        it.root.ents marks ∧
      Y = ((it.root.ents.zip marks).filter (·.2)).map (·.1) ∧
      Y.Sublist R ∧
      (Y.map (·.1)).Sublist it'.root.own ∧
      it'.len + Y.length = it.len ∧
      (quiet E = true → Y.length = min ds.length R.length ∧
        ∃ rest, gotten true ds E ++ rest ++ (gotten false ds E).reverse = R) ∧
      (quiet E = false → Bad c) := by
  intro E R Y
  have hn := (pos_nodup it.root.skel).sublist hp
  obtain ⟨it', s', F, B, i1, i2, i3, i4, i5, i6, i7, i8, i9, i10, i11⟩ :=
    run_spec c g ds it s hw hl hn
  have hsomeP : ∀ x ∈ pos it.root.skel, (ent x it.root).isSome := fun x hx => ent_some hx
  have hsub : (F ++ B.reverse).Sublist (ipos it.root.skel it.work) := by
    refine List.Sublist.trans ?_ i3
    rw [List.append_assoc]
    exact (List.Sublist.refl _).append (List.sublist_append_right _ _)
  have hsubP := hsub.trans hp
  have hY : Y = (F ++ B.reverse).filterMap (fun p => ent p it.root) := by
    simp only [Y, E, i4, i5, List.filterMap_append, List.filterMap_reverse]
  have hlenF : ∀ l : List Path, l.Sublist (pos it.root.skel) →
      (l.filterMap (fun p => ent p it.root)).length = l.length := by
    intro l h
    exact (filterMap_zipWith (fun p => ent p it.root) id (fun _ => true) l
      (fun x hx => hsomeP x (h.mem hx))).2.1
  have hYlen : Y.length = (F ++ B).length := by
    rw [hY, hlenF _ hsubP]; simp
  obtain ⟨z1, z2, z3⟩ := filterMap_zipWith (fun p => ent p it.root) (fun e => (e.1, g e.1 e.2))
    (fun p => decide (p ∈ F ++ B.reverse)) (pos it.root.skel) hsomeP
  have hfil : (pos it.root.skel).filter (fun p => decide (p ∈ F ++ B.reverse)) = F ++ B.reverse :=
    nodup_filter hsubP (pos_nodup it.root.skel) (fun x _ => by simp only [decide_eq_true_eq])
  refine ⟨it', s', (pos it.root.skel).map (fun p => decide (p ∈ F ++ B.reverse)), i1, i2, ?_, ?_, ?_, ?_,
    ?_, ?_, ?_, i11⟩
  · rw [ents_pos, z2]; simp
  · rw [ents_pos it.root, ← z1, ents_pos it'.root, i2]
    apply List.filterMap_congr
    intro q hq
    rw [i6]
    simp
  · rw [ents_pos it.root, z3, hfil]; exact hY
  · rw [hY]; exact hsub.filterMap _
  · rw [hY, ← hfil, own_pos, i2, List.map_filterMap, List.filterMap_filter]
    apply sublist_filterMap
    intro q hq
    by_cases hm : q ∈ F ++ B.reverse
    · left
      have hm2 : q ∈ F ++ B := by simpa using hm
      rw [if_pos (by simpa using hm), if_pos (i8 q hm2), i6, if_pos hm2]
      cases ent q it.root <;> rfl
    · right
      rw [if_neg (by simpa using hm)]
  · rw [hYlen]; exact i9
  · intro hq
    obtain ⟨j1, j2⟩ := i10 hq
    refine ⟨?_, (ipos it.root.skel it'.work).filterMap (fun p => ent p it.root), ?_⟩
    · rw [hYlen, j1]
      simp only [R]
      rw [hlenF _ hp]
    · simp only [R, E, i4, i5]
      rw [← j2]
      simp [List.filterMap_append, List.filterMap_reverse]

/-! ### `range_mut` -/

/-- Follow a path in a tree without marks. -/
def subE : Path → Tree K V → Tree K V
  | [], t => t
  | _ :: _, .nil => .nil
  | d :: p, .node _ _ _ _ l r => subE p (if d then r else l)

theorem erase_sub : ∀ (p : Path) (t : STree K V), (sub p t).erase = subE p t.erase
  | [], _ => rfl
  | _ :: _, nil => rfl
  | false :: p, node _ _ _ _ _ l r => erase_sub p l
  | true :: p, node _ _ _ _ _ l r => erase_sub p r

/-- An action of the model without sharing. -/
def MAct.act (t : STree K V) : MAct → Act K V
  | .desc p => .desc (sub p t).erase
  | .ret p => (ent p t).elim (.desc .nil) .ret

theorem act_kept {t t' : STree K V} (h : Kept t t') : (MAct.act t' : MAct → Act K V) = MAct.act t := by
  funext a
  cases a with
  | desc p => simp [MAct.act, erase_sub, h.erase]
  | ret p => simp [MAct.act, h.ent]

theorem sub_snoc (d : Bool) : ∀ (p : Path) (t : STree K V), sub (p ++ [d]) t =
    match sub p t with
    | nil => nil
    | node _ _ _ _ _ l r => if d then r else l
  | [], nil => rfl
  | [], node .. => by simp [sub]
  | _ :: _, nil => by simp [sub]
  | e :: p, node _ _ _ _ _ l r => sub_snoc d p (if e then r else l)

theorem act_pushM (t : STree K V) (b : Bool) (p : Path) (w : List MAct) :
    (pushM t.skel b p w).map (MAct.act t) =
      if b then pushDesc (sub p t).erase (w.map (MAct.act t)) else w.map (MAct.act t) := by
  unfold pushM
  rw [← skel_sub]
  cases b with
  | false => simp
  | true =>
    cases hs : sub p t with
    | nil => simp [skel, none?, erase, pushDesc]
    | node => simp [skel, none?, erase, pushDesc, MAct.act, hs]

theorem ent_of_sub {p : Path} {t : STree K V} {sh k v lh rh l r}
    (h : sub p t = node sh k v lh rh l r) : ent p t = some (k, v) := by
  unfold ent; rw [h]

/-- The loops of `range_mut` do what those of `range` do. -/
theorem digC_act (c : Cl σ K V) (front d : Bool) (lb ub : Bnd K) :
    ∀ (w : List MAct) (t : STree K V) (s : σ), Ours t w →
      ∀ w' t' s', digC c front d (selB lb ub) w t s = (false, w', t', s') →
        w'.map (MAct.act t') = (if front then pruneL lb ub (w.map (MAct.act t))
          else pruneRrev lb ub (w.map (MAct.act t))) := by
  intro w t s
  fun_induction digC c front d (selB lb ub) w t s with
  | case1 t s => intro hw w' t' s' e; cases e; cases front <;> simp [pruneL, pruneRrev]
  | case2 p w t s =>
    intro hw w' t' s' e
    cases e
    obtain ⟨k, u, lh, rh, l, r, e⟩ := subT_of_clear (hw (.ret p) (by simp))
    rw [← skel_sub] at e
    simp only [MAct.path] at e
    cases hs : sub p t with
    | nil => rw [hs] at e; cases e
    | node => cases front <;> simp [MAct.act, ent_of_sub hs, pruneL, pruneRrev]
  | case3 p w t s hp => intro hw w' t' s' e; cases e
  | case4 p w t s k u lh rh l r hp t1 s1 ho => intro hw w' t' s' e; cases e
  | case5 p w t s k u lh rh l r hp t1 s1 ho ih =>
    intro hw w' t' s' e
    obtain ⟨k1, k2, k3⟩ := openC_kept (hw (.desc p) (by simp)) ho
    have hw1 : Ours t1 (parts t.skel front p (selB lb ub k) w) := by
      intro a ha
      rcases mem_parts ha with ha | rfl | ⟨e, rfl, he, hn⟩
      · exact k1.clear _ (hw a (by simp [ha]))
      · exact k1.clear _ (hw (.desc p) (by simp))
      · refine k3 rfl e ?_ hn
        revert he
        cases e <;> cases d <;> simp
    rw [ih hw1 w' t' s' e, act_kept k1]
    rw [← skel_sub] at hp
    cases hs : sub p t with
    | nil => rw [hs] at hp; cases hp
    | node sh k' v lh' rh' l' r' =>
      rw [hs] at hp
      simp only [skel, Tree.node.injEq] at hp
      obtain ⟨rfl, -, -, -, -, -⟩ := hp
      have hl : sub (p ++ [false]) t = l' := by rw [sub_snoc, hs]; rfl
      have hr : sub (p ++ [true]) t = r' := by rw [sub_snoc, hs]; rfl
      have hR : ∀ b w, (pushR b p w).map (MAct.act t) =
          if b then .ret (k', v) :: w.map (MAct.act t) else w.map (MAct.act t) := by
        intro b w
        unfold pushR
        cases b <;> simp [MAct.act, ent_of_sub hs]
      cases front
      · simp only [Bool.false_eq_true, if_false, List.map_cons, MAct.act, hs, erase]
        rw [pruneRrev]
        congr 1
        simp only [parts, pruneStepR, selB, Bool.false_eq_true, if_false, act_pushM, hR, hl, hr]
        cases lbGe lb k' <;> cases ubLe ub k' <;> simp
      · simp only [if_true, List.map_cons, MAct.act, hs, erase]
        rw [pruneL]
        congr 1
        simp only [parts, pruneStepL, selB, if_true, act_pushM, hR, hl, hr]
        cases lbGe lb k' <;> cases ubLe ub k' <;> simp

theorem ent_append : ∀ (p q : Path) (t : STree K V), ent (p ++ q) t = ent q (sub p t)
  | [], _, _ => rfl
  | _ :: _, _, nil => by simp [sub]
  | d :: p, q, node _ _ _ _ _ l r => ent_append p q (if d then r else l)

theorem items_act (t : STree K V) : ∀ (w : List MAct), Ours t w →
    items (w.map (MAct.act t)) = (ipos t.skel w).filterMap (fun p => ent p t)
  | [], _ => rfl
  | a :: w, h => by
    rw [List.map_cons, items_cons, items_act t w (fun b hb => h b (by simp [hb])), ipos_cons,
      List.filterMap_append]
    congr 1
    cases a with
    | desc p =>
      simp only [MAct.act, Act.items, MAct.poss, List.filterMap_map, ← skel_sub]
      have := ents_pos (sub p t)
      rw [ents] at this
      rw [this]
      apply List.filterMap_congr
      intro q _
      exact (ent_append p q t).symm
    | ret p =>
      obtain ⟨k, u, lh, rh, l, r, e⟩ := subT_of_clear (h (.ret p) (by simp))
      rw [← skel_sub] at e
      simp only [MAct.path] at e
      cases hs : sub p t with
      | nil => rw [hs] at e; cases e
      | node => simp [MAct.act, MAct.poss, ent_of_sub hs, Act.items]

end STree

namespace SMap
open STree

/-- What `iter_mut` leaves. -/
theorem iterMutC_spec (c : Cl σ K V) (m : SMap K V) (s : σ) :
    match (m.iterMutC c s).1 with
    | .unwound m' => m'.len = m.len ∧ Kept m.root m'.root ∧ Bad c
    | .done it => it.len = m.len ∧ Kept m.root it.root ∧ Ours it.root it.work ∧
        ipos it.root.skel it.work = pos it.root.skel := by
  unfold iterMutC
  rcases hd : makeMutC c [] m.root s with ⟨b, t, s1⟩
  obtain ⟨h1, h2⟩ := makeMutC_kept rfl hd
  cases b with
  | true => exact ⟨rfl, h1, makeMutC_bad hd⟩
  | false =>
    refine ⟨rfl, h1, ?_, ?_⟩
    · intro a ha
      simp only [pushM] at ha
      split at ha
      · next hn =>
        simp only [List.mem_singleton] at ha
        subst ha
        refine h2 rfl ?_
        rw [← h1.skel]
        simpa using hn
      · cases ha
    · have := iposd_pushM t.skel true true [] []
      simp only [iposd, if_true] at this
      simp only [this, ipos_nil, MAct.poss, subT]
      simp

/-- What `range_mut` leaves. -/
theorem rangeMutC_spec [Ord K] [Std.TransOrd K] (c : Cl σ K V) {lb ub : Bnd K} (hlb : lb.Lawful)
    (hub : ub.Lawful) (m : SMap K V) (hs : Sorted m.ents) (s : σ) :
    match (m.rangeMutC c lb ub s).1 with
    | .unwound m' => m'.len = m.len ∧ Kept m.root m'.root ∧ Bad c
    | .done it => it.len = m.len ∧ Kept m.root it.root ∧ Ours it.root it.work ∧
        (ipos it.root.skel it.work).Sublist (pos it.root.skel) ∧
        (ipos it.root.skel it.work).filterMap (fun p => ent p it.root) =
          Spec.range lb ub m.ents := by
  have h0 := iterMutC_spec c m s
  unfold iterMutC at h0
  unfold rangeMutC
  rcases hd : makeMutC c [] m.root s with ⟨b, t, s1⟩
  rw [hd] at h0
  cases b with
  | true => exact h0
  | false =>
    simp only at h0 ⊢
    obtain ⟨-, h1, h2, h3⟩ := h0
    rcases hd1 : digC c true true (selB lb ub) (pushM t.skel true [] []) t s1 with ⟨b, w1, t1, s2⟩
    obtain ⟨i1, i2, i3, i4, i5⟩ := digC_spec c true true (selB lb ub) _ _ s1 h2 _ _ _ _ hd1
    simp only [iposd, if_true] at i4
    cases b with
    | true => exact ⟨rfl, h1.trans i1, i3 rfl⟩
    | false =>
      simp only
      have i2' : Ours t1 w1.reverse := fun a ha => i2 a (by simpa using ha)
      rcases hd2 : digC c false false (selB lb ub) w1.reverse t1 s2 with ⟨b, w2, t2, s3⟩
      obtain ⟨j1, j2, j3, j4, j5⟩ := digC_spec c false false (selB lb ub) _ _ s2 i2' _ _ _ _ hd2
      simp only [iposd, Bool.false_eq_true, if_false, List.reverse_reverse] at j4
      cases b with
      | true => exact ⟨rfl, (h1.trans i1).trans j1, j3 rfl⟩
      | false =>
        have j2' : Ours t2 w2.reverse := fun a ha => j2 a (by simpa using ha)
        have hk : Kept m.root t2 := (h1.trans i1).trans j1
        refine ⟨rfl, hk, j2', ?_, ?_⟩
        · show (ipos t2.skel w2.reverse).Sublist (pos t2.skel)
          rw [j1.skel]
          refine j4.trans ?_
          rw [i1.skel, ← h3]
          exact i4
        · rw [← items_act t2 w2.reverse j2', List.map_reverse]
          have a1 := digC_act c true true lb ub _ _ s1 h2 _ _ _ hd1
          have a2 := digC_act c false false lb ub _ _ s2 i2' _ _ _ hd2
          simp only [if_true] at a1
          simp only [Bool.false_eq_true, if_false, List.map_reverse] at a2
          rw [a2, a1]
          have := items_rangeOf hlb hub m.len (t := t.erase) (by
            rw [h1.erase]; exact hs)
          simp only [rangeOf] at this
          rw [act_pushM]
          simp only [if_true, sub, List.map_nil]
          rw [this, h1.erase]
          rfl

theorem iterMutC_acc {q : K → Bool} (c : Cl σ K V) (m : SMap K V) (s : Nat × σ) :
    (match (m.iterMutC (tally q c) s).1 with
      | .unwound m' => m'.root.cnt q
      | .done it => it.root.cnt q) + s.1 = m.root.cnt q + (m.iterMutC (tally q c) s).2.1 := by
  unfold iterMutC
  rcases hd : makeMutC (tally q c) [] m.root s with ⟨b, t, s1⟩
  have := makeMutC_acc rfl hd
  cases b <;> exact this

theorem rangeMutC_acc {q : K → Bool} (c : Cl σ K V) (lb ub : Bnd K) (m : SMap K V) (s : Nat × σ) :
    (match (m.rangeMutC (tally q c) lb ub s).1 with
      | .unwound m' => m'.root.cnt q
      | .done it => it.root.cnt q) + s.1 = m.root.cnt q + (m.rangeMutC (tally q c) lb ub s).2.1 := by
  have h0 := iterMutC_spec (tally q c) m s
  unfold iterMutC at h0
  unfold rangeMutC
  rcases hd : makeMutC (tally q c) [] m.root s with ⟨b, t, s1⟩
  have ha := makeMutC_acc rfl hd
  rw [hd] at h0
  cases b with
  | true => exact ha
  | false =>
    simp only at h0 ⊢
    obtain ⟨-, h1, h2, h3⟩ := h0
    rcases hd1 : digC (tally q c) true true (selB lb ub) (pushM t.skel true [] []) t s1 with
      ⟨b, w1, t1, s2⟩
    obtain ⟨i1, i2, i3, i4, i5⟩ := digC_spec (tally q c) true true (selB lb ub) _ _ s1 h2 _ _ _ _ hd1
    have hb := digC_acc c true true (selB lb ub) _ _ s1 h2 _ _ _ _ hd1
    cases b with
    | true => simp only; omega
    | false =>
      simp only
      have i2' : Ours t1 w1.reverse := fun a ha => i2 a (by simpa using ha)
      rcases hd2 : digC (tally q c) false false (selB lb ub) w1.reverse t1 s2 with ⟨b, w2, t2, s3⟩
      have hc := digC_acc c false false (selB lb ub) _ _ s2 i2' _ _ _ _ hd2
      cases b <;> simp only <;> omega

end SMap

/-! ### `for_each_mut` -/

/-- Calls of a closure on a list of entries, up to its panic. -/
def feed {τ : Type} (f : τ → K → V → τ × V × Bool) : τ → List (K × V) → τ × List (K × V) × Bool
  | a, [] => (a, [], false)
  | a, (k, v) :: es =>
    match f a k v with
    | (a, v, true) => (a, (k, v) :: es, true)
    | (a, v, false) => ((feed f a es).1, (k, v) :: (feed f a es).2.1, (feed f a es).2.2)

theorem feed_append {τ : Type} (f : τ → K → V → τ × V × Bool) : ∀ (l : List (K × V)) (a a' : τ) (l'),
    feed f a l = (a', l', false) → ∀ l2, feed f a (l ++ l2) =
      ((feed f a' l2).1, l' ++ (feed f a' l2).2.1, (feed f a' l2).2.2)
  | [], a, a', l', h, l2 => by cases h; rfl
  | (k, v) :: es, a, a', l', h, l2 => by
    simp only [feed, List.cons_append] at h ⊢
    rcases hf : f a k v with ⟨a1, v1, _ | _⟩
    · rw [hf] at h
      simp only [Prod.mk.injEq] at h ⊢
      obtain ⟨rfl, rfl, h3⟩ := h
      have := feed_append f es a1 _ _ (by
        show feed f a1 es = ((feed f a1 es).1, (feed f a1 es).2.1, false)
        rw [← h3]) l2
      rw [this]
      simp
    · rw [hf] at h
      simp at h

namespace STree

theorem forEachC_spec {τ : Type} (c : Cl σ K V) (f : τ → K → V → τ × V × Bool) :
    ∀ (t : STree K V) (b : Bool) (a : τ) (s : σ) (x t' a' s'),
      forEachC c f b t a s = (x, t', a', s') →
      t'.skel = t.skel ∧ ∃ pre post pre' y, t.ents = pre ++ post ∧ t'.ents = pre' ++ post ∧
        feed f a pre = (a', pre', y) ∧ pre.map (·.1) <+: t'.own ∧
        (x = false → post = [] ∧ y = false) ∧ (x = true → y = true ∨ Bad c)
  | nil, b, a, s, x, t', a', s', h => by
    cases h
    exact ⟨rfl, [], [], [], false, rfl, rfl, rfl, by simp [own], fun _ => ⟨rfl, rfl⟩, nofun⟩
  | node sh k v lh rh l r, b, a, s, x, t', a', s', h => by
    unfold forEachC at h
    split at h
    · next hc =>
      cases h
      exact ⟨rfl, [], _, [], false, rfl, rfl, rfl, by simp, nofun, fun _ => Or.inr (bad_of_cloneIf hc)⟩
    · next s1 hc =>
      split at h
      · next l1 a1 s2 hl =>
        cases h
        obtain ⟨i1, pre, post, pre', y, i2, i3, i4, i5, i6, i7⟩ := forEachC_spec c f l _ _ _ _ _ _ _ hl
        refine ⟨by simp [skel, i1], pre, post ++ (k, v) :: r.ents, pre', y, by rw [ents_node, i2]; simp,
          by rw [ents_node, i3, ents_shareIf]; simp, i4, ?_, nofun, i7⟩
        simp only [own, Bool.false_eq_true, if_false]
        exact i5.trans (List.prefix_append _ _)
      · next l1 a1 s2 hl =>
        obtain ⟨i1, pre, post, pre', y, i2, i3, i4, i5, i6, i7⟩ := forEachC_spec c f l _ _ _ _ _ _ _ hl
        obtain ⟨rfl, rfl⟩ := i6 rfl
        simp only [List.append_nil] at i2 i3
        have hown : l1.own = pre.map (·.1) := by
          have h1 : l1.own.Sublist (l1.ents.map (·.1)) := by
            clear * -
            induction l1 with
            | nil => exact .slnil
            | node sh k v lh rh l r ihl ihr =>
              simp only [own]
              split
              · exact List.nil_sublist _
              · rw [ents_node, List.map_append, List.map_cons]
                exact ihl.append (ihr.cons_cons _)
          have h2 : l1.ents.map (·.1) = pre.map (·.1) := by
            rw [i3]
            have : ∀ (es : List (K × V)) (a : τ), (feed f a es).2.1.map (·.1) = es.map (·.1) := by
              intro es
              induction es with
              | nil => intro a; rfl
              | cons e es ih =>
                intro a
                simp only [feed]
                split <;> simp [ih]
            rw [← this pre a, i4]
          rw [h2] at h1
          exact (h1.antisymm i5.sublist)
        split at h
        · next a2 v2 hf =>
          cases h
          refine ⟨by simp [skel, i1], l.ents ++ [(k, v)], r.ents, l1.ents ++ [(k, v2)], true,
            by rw [ents_node]; simp, by rw [ents_node, ents_shareIf]; simp, ?_, ?_, nofun,
            fun _ => Or.inl rfl⟩
          · rw [i2, feed_append f _ _ _ _ i4]
            simp [feed, hf, i3]
          · simp only [own, Bool.false_eq_true, if_false, hown, i2, List.map_append, List.map_cons,
              List.map_nil]
            exact ⟨own (r.shareIf (sh || b)), by simp⟩
        · next a2 v2 hf =>
          rcases hr : forEachC c f (sh || b) r a2 s2 with ⟨x1, r1, a3, s3⟩
          rw [hr] at h
          cases h
          obtain ⟨j1, qre, qost, qre', z, j2, j3, j4, j5, j6, j7⟩ := forEachC_spec c f r _ _ _ _ _ _ _ hr
          refine ⟨by simp [skel, i1, j1], l.ents ++ (k, v) :: qre, qost, l1.ents ++ (k, v2) :: qre', z,
            by rw [ents_node, j2]; simp, by rw [ents_node, j3]; simp, ?_, ?_, j6, j7⟩
          · rw [i2, feed_append f _ _ _ _ i4]
            simp [feed, hf, i3, j4]
          · simp only [own, Bool.false_eq_true, if_false, hown, i2, List.map_append, List.map_cons]
            obtain ⟨o, ho⟩ := j5
            exact ⟨o, by rw [← ho]; simp⟩

theorem forEachC_acc {τ : Type} {q : K → Bool} (c : Cl σ K V) (f : τ → K → V → τ × V × Bool) :
    ∀ (t : STree K V) (b : Bool) (a : τ) (s : Nat × σ) (x t' a' s'),
      forEachC (tally q c) f b t a s = (x, t', a', s') →
      t'.cnt q + s.1 = (t.shareIf b).cnt q + s'.1
  | nil, b, a, s, x, t', a', s', h => by cases h; simp
  | node sh k v lh rh l r, b, a, s, x, t', a', s', h => by
    unfold forEachC at h
    split at h
    · next hc =>
      cases h
      have := cloneIf_tally hc
      simp only [Bool.not_true, Bool.and_false, Bool.false_eq_true, if_false] at this
      simp only [cnt_shareIf, cnt_node]
      cases sh <;> cases b <;> simp <;> omega
    · next s1 hc =>
      have h1 := cloneIf_tally hc
      clear hc
      simp only [Bool.not_false, Bool.and_true] at h1
      split at h
      · next l1 a1 s2 hl =>
        cases h
        have i := forEachC_acc c f l _ _ _ _ _ _ _ hl
        clear hl
        simp only [cnt_shareIf, cnt_node] at i ⊢
        cases sh <;> cases b <;> simp at i h1 ⊢ <;> omega
      · next l1 a1 s2 hl =>
        have i := forEachC_acc c f l _ _ _ _ _ _ _ hl
        clear hl
        split at h
        · cases h
          simp only [cnt_shareIf, cnt_node] at i ⊢
          cases sh <;> cases b <;> simp at i h1 ⊢ <;> omega
        · next a2 v2 hf =>
          rcases hr : forEachC (tally q c) f (sh || b) r a2 s2 with ⟨x1, r1, a3, s3⟩
          rw [hr] at h
          cases h
          have j := forEachC_acc c f r _ _ _ _ _ _ _ hr
          clear hr
          simp only [cnt_shareIf, cnt_node] at i j ⊢
          cases sh <;> cases b <;> simp at i j h1 ⊢ <;> omega

end STree

/-! ### The maps that are left can be built -/

/-- A map with the keys, heights and shape of one that can be built can be built. -/
theorem reachable_of_skel [Ord K] {m m' : AvlMap K V} (h : Reachable m) (hl : m'.len = m.len)
    (hs : m'.root.skel = m.root.skel) : Reachable m' := by
  let f : List V → K → V → List V × V := fun a _ v =>
    match a with
    | [] => ([], v)
    | x :: a => (a, x)
  have key := h.forEachMut (f := f) (s := m'.abs.map (·.2))
  have : (m.forEachMut f (m'.abs.map (·.2))).2 = m' := by
    obtain ⟨n, t⟩ := m
    obtain ⟨n', t'⟩ := m'
    simp only at hl hs
    subst hl
    simp only [AvlMap.forEachMut, AvlMap.abs]
    congr 1
    clear key h
    have gen : ∀ (t t' : Tree K V) (vs : List V), t'.skel = t.skel →
        t.forEachMut f (t'.toList.map (·.2) ++ vs) = (vs, t') := by
      intro t
      induction t with
      | nil =>
        intro t' vs h
        cases t' with
        | nil => rfl
        | node => simp [Tree.skel] at h
      | node k v lh rh l r ihl ihr =>
        intro t' vs h
        cases t' with
        | nil => simp [Tree.skel] at h
        | node k' v' lh' rh' l' r' =>
          simp only [Tree.skel, Tree.node.injEq] at h
          obtain ⟨rfl, -, rfl, rfl, hl, hr⟩ := h
          simp only [Tree.forEachMut, Tree.toList, List.map_append, List.map_cons, List.append_assoc,
            List.cons_append]
          rw [ihl l' _ hl]
          simp only [f]
          rw [ihr r' _ hr]
    have := gen t t' [] hs
    rw [List.append_nil] at this
    rw [this]
  rw [← this]
  exact key

end Verif.Avl
