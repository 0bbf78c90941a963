import Verif.Fixed.Iter
import Mathlib.Data.List.Forall2
/-!
# `into_iter` of the fixed-layout B-tree yields what `iter` yields, whatever is shared
-/
set_option linter.unusedSectionVars false
namespace Verif.Fixed
open Verif.BTree Verif.BTree.Node
variable {I E C J F G K V : Type}

/-- Two node iterators that do the same. -/
structure Alike (o : NOps I E C) (p : NOps J F G) (f : E → F) (R : I → J → Prop) : Prop where
  cost : ∀ {w t}, R w t → o.cost w = p.cost t
  next : ∀ {w t}, R w t → match o.next w with
    | none => False
    | some (w', some (.ret e)) => ∃ t', p.next t = some (t', some (.ret (f e))) ∧ R w' t'
    | some (w', some (.desc c)) => ∃ i t' d j, o.make c = some i ∧
        p.next t = some (t', some (.desc d)) ∧ p.make d = some j ∧ R i j ∧ R w' t'
    | some (_, none) => ∃ t', p.next t = some (t', none)

section
variable {o : NOps I E C} {p : NOps J F G} {f : E → F} {R : I → J → Prop}

theorem Alike.loop (h : Alike o p f R) : ∀ {n : Nat} {ws ws' : List I} {ts : List J}
    {len len' : Nat} {r : Option E}, List.Forall₂ R ws ts →
    o.loop n ws len = some (r, ws', len') →
    ∃ ts', p.loop n ts len = some (r.map f, ts', len') ∧ List.Forall₂ R ws' ts'
  | 0, _, _, _, _, _, _, _, hl => by simp [NOps.loop] at hl
  | n + 1, _, ws', _, len, len', r, .nil, hl => by
    simp only [NOps.loop, Option.some.injEq, Prod.mk.injEq] at hl
    obtain ⟨rfl, rfl, rfl⟩ := hl
    exact ⟨[], rfl, .nil⟩
  | n + 1, _, ws', _, len, len', r, .cons (a := w) (b := t) (l₁ := ws) (l₂ := ts) hw hws, hl => by
    have hn := h.next hw
    rw [NOps.loop] at hl ⊢
    split at hl
    · simp at hl
    · rename_i w' e he
      rw [he] at hn
      obtain ⟨t', h1, h2⟩ := hn
      rw [h1]
      dsimp only
      split at hl
      · simp at hl
      · rename_i h0
        simp only [Option.some.injEq, Prod.mk.injEq] at hl
        obtain ⟨rfl, rfl, rfl⟩ := hl
        rw [if_neg h0]
        exact ⟨_, rfl, .cons h2 hws⟩
    · rename_i w' c he
      rw [he] at hn
      obtain ⟨i, t', d, j, h1, h2, h3, h4, h5⟩ := hn
      rw [h1] at hl
      rw [h2]
      simp only [h3]
      exact Alike.loop h (.cons h4 (.cons h5 hws)) hl
    · rename_i w' he
      rw [he] at hn
      obtain ⟨t', h1⟩ := hn
      rw [h1]
      exact Alike.loop h hws hl

theorem Alike.costs (h : Alike o p f R) {ws : List I} {ts : List J} (hw : List.Forall₂ R ws ts) :
    ws.map o.cost = ts.map p.cost := by
  induction hw with
  | nil => rfl
  | cons hr _ ih => simp [h.cost hr, ih]

theorem Alike.step (h : Alike o p f R) {d : Bool} {it it' : Inner I} {jt : Inner J}
    {r : Option E} (hl : it.len = jt.len) (hw : List.Forall₂ R it.work jt.work)
    (hs : o.step d it = some (r, it')) :
    ∃ jt', p.step d jt = some (r.map f, jt') ∧ it'.len = jt'.len ∧
      List.Forall₂ R it'.work jt'.work := by
  have hc := h.costs hw
  cases d with
  | true =>
    simp only [NOps.step, if_true, Option.map_eq_some_iff] at hs
    obtain ⟨⟨r2, w, l⟩, h1, h2⟩ := hs
    simp only [Prod.mk.injEq] at h2
    obtain ⟨rfl, rfl⟩ := h2
    rw [hc, hl] at h1
    obtain ⟨ts, h3, h4⟩ := h.loop hw h1
    exact ⟨⟨ts, l⟩, by simp [NOps.step, h3], rfl, h4⟩
  | false =>
    simp only [NOps.step, Bool.false_eq_true, if_false, Option.map_eq_some_iff] at hs
    obtain ⟨⟨r2, w, l⟩, h1, h2⟩ := hs
    simp only [Prod.mk.injEq] at h2
    obtain ⟨rfl, rfl⟩ := h2
    rw [hc, hl] at h1
    obtain ⟨ts, h3, h4⟩ := h.loop (List.rel_reverse hw) h1
    exact ⟨⟨ts.reverse, l⟩, by simp [NOps.step, h3], rfl, List.rel_reverse h4⟩

theorem Alike.run (h : Alike o p f R) : ∀ {ds : List Bool} {it it' : Inner I} {jt : Inner J}
    {ys : List (Option E × Nat)}, it.len = jt.len → List.Forall₂ R it.work jt.work →
    o.run ds it = some (ys, it') →
    ∃ jt', p.run ds jt = some (ys.map (fun y => (y.1.map f, y.2)), jt')
  | [], it, it', jt, ys, _, _, hr => by
    simp only [NOps.run, Option.some.injEq, Prod.mk.injEq] at hr
    obtain ⟨rfl, rfl⟩ := hr
    exact ⟨jt, rfl⟩
  | d :: ds, it, it', jt, ys, hl, hw, hr => by
    rw [NOps.run] at hr
    split at hr
    · simp at hr
    · rename_i r it2 hs
      rw [Option.map_eq_some_iff] at hr
      obtain ⟨⟨zs, it3⟩, hr, h0⟩ := hr
      simp only [Prod.mk.injEq] at h0
      obtain ⟨rfl, rfl⟩ := h0
      obtain ⟨jt2, h1, h2, h3⟩ := h.step hl hw hs
      obtain ⟨jt3, h4⟩ := Alike.run h h2 h3 hr
      exact ⟨jt3, by simp [NOps.run, h1, h4, h2]⟩

end

/-- A `NodeIntoIter` and a `NodeIter` with the same left to yield. -/
def IISame (w : II K V) (t : NI K V) : Prop :=
  ∃ es ks, w.Ok es ks ∧
    t = ⟨es, ks.map ANode.forget, decide ¬ (w.kx < w.ek ∧ w.kx ≤ w.ex)⟩

theorem IISame.make {lo h : Nat} {b : Bool} {n : ANode K V} (hn : Ok MIN lo h n.forget)
    (hlo : 1 ≤ lo) :
    ∃ i j, iiOps.make (b, n) = some i ∧ niOps.make n.forget = some j ∧ IISame i j := by
  obtain ⟨i, e1, -, -, -, hok, -⟩ := iiOps_make (b := b) hn hlo
  obtain ⟨j, f1, -, -, -⟩ := niOps_make hn hlo
  refine ⟨i, j, e1, f1, n.elems, n.kids, hok, ?_⟩
  simp only [niOps] at f1
  split at f1
  · simp at f1
  · simp only [Option.some.injEq] at f1
    subst f1
    simp only [iiOps, Option.some.injEq] at e1
    subst e1
    obtain ⟨o, es, ks⟩ := n
    simp only [ANode.forget_elems, ANode.forget_kids, ANode.elems, ANode.kids]
    congr 1
    cases ks <;> simp

theorem ii_alike : Alike (iiOps : NOps (II K V) _ _) niOps (·.2) IISame where
  cost := by
    rintro w _ ⟨es, ks, h, rfl⟩
    rw [h.cost_eq]
    rfl
  next := by
    rintro w _ ⟨es, ks, h, rfl⟩
    simp only [iiOps]
    by_cases hc : w.kx < w.ek ∧ w.kx ≤ w.ex
    · rw [if_pos hc]
      have hek := h.hek
      cases ks with
      | nil => simp at hek; omega
      | cons c ks =>
        obtain ⟨s', e, hs', -⟩ := h.hks.take
        rw [e]
        have hsh : w.kx = w.ex ∧ ks.length = es.length := by
          have := h.shape
          simp only [List.length_cons, reduceCtorEq, false_and, false_or] at this
          omega
        have hok' : II.Ok {w with ks := s', kx := w.kx + 1} es ks :=
          ⟨h.hes, hs', h.hee, by simp only [List.length_cons] at hek ⊢; omega,
            .inr (.inr ⟨by simp only; omega, hsh.2⟩), fun d hd => h.kids d (by simp [hd])⟩
        obtain ⟨ht, hkid⟩ := h.kids c (by simp)
        obtain ⟨i, j, e1, e2, e3⟩ := IISame.make (b := w.own && c.own) hkid (by omega)
        refine ⟨i, ⟨es, ks.map ANode.forget, true⟩, c.forget, j, e1, ?_, e2, e3, es, ks, hok', ?_⟩
        · simp [niOps, hc]
        · congr 1
          rw [eq_comm, decide_eq_true_iff]
          dsimp only
          omega
    · rw [if_neg hc]
      have hee := h.hee
      have hek := h.hek
      cases es with
      | nil =>
        rw [if_neg (by simp at hee; omega)]
        exact ⟨_, by simp [niOps, hc]; rfl⟩
      | cons e es =>
        rw [if_pos (by simp at hee; omega)]
        obtain ⟨s', e', hs', -⟩ := h.hes.take
        rw [e']
        have hok' : II.Ok {w with es := s', ex := w.ex + 1} es ks := by
          refine ⟨hs', h.hks, by simp only [List.length_cons] at hee ⊢; omega, hek, ?_, h.kids⟩
          simp only
          rcases h.shape with ⟨h1, h2⟩ | ⟨h1, h2⟩ | ⟨h1, h2⟩
          · left; refine ⟨h1, .inl ?_⟩
            rcases h2 with h2 | h2
            · exact h2
            · simp at h2
          · simp at h2; omega
          · right; left; simp at h2; omega
        refine ⟨⟨es, ks.map ANode.forget, ks.isEmpty⟩, by simp [niOps, hc], es, ks, hok', ?_⟩
        congr 1
        have hsh := h.shape
        cases ks with
        | nil => simp at hek ⊢; omega
        | cons c ks =>
          simp only [List.length_cons, reduceCtorEq, false_and, false_or] at hsh hek
          simp
          omega

namespace FMap
variable [Ord K] [Std.TransOrd K] {m : FMap K V}

/-- `into_iter` under any schedule yields what `iter` does. -/
theorem intoRun_eq (s : Sharing K V) (h : m.WF) (ds : List Bool) :
    (m.intoRun s ds).map (fun r => r.1.map (fun y => (y.1.map (·.2), y.2))) = m.iterRun ds := by
  obtain ⟨ys, d, e, -⟩ := intoRun_spec s h ds
  rw [e, Option.map_some, eq_comm]
  simp only [intoRun] at e
  split at e
  · simp at e
  · rename_i it hi
    split at e
    · simp at e
    · rename_i zs it' hr
      rw [Option.map_eq_some_iff] at e
      obtain ⟨_, -, e⟩ := e
      simp only [Prod.mk.injEq] at e
      obtain ⟨rfl, -⟩ := e
      obtain ⟨root, len⟩ := m
      have key : ∃ jt, (FMap.mk root len).iter = some jt ∧ it.len = jt.len ∧
          List.Forall₂ IISame it.work jt.work := by
        cases root with
        | none =>
          simp only [intoIter, Option.map_none, NOps.start, Option.some.injEq] at hi
          subst hi
          exact ⟨⟨[], len⟩, rfl, rfl, .nil⟩
        | some n =>
          obtain ⟨ht, hn⟩ := h.shape n rfl
          rw [← s.forget_annot n] at hn
          obtain ⟨i, j, e1, e2, e3⟩ := IISame.make (b := (s.annot n).own) hn (Nat.le_refl 1)
          simp only [intoIter, Option.map_some, NOps.start, e1, Option.some.injEq] at hi
          subst hi
          rw [s.forget_annot] at e2
          exact ⟨⟨[j], len⟩, by simp [iter, NOps.start, e2], rfl, .cons e3 .nil⟩
      obtain ⟨jt, h1, h2, h3⟩ := key
      obtain ⟨jt', h4⟩ := ii_alike.run h2 h3 hr
      simp [iterRun, h1, h4]

end FMap
end Verif.Fixed
