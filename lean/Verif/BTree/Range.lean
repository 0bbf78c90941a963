import Verif.BTree.Map
/-!
# `range` and `range_mut` of `BTreeMap` (btree.rs:1764-2160)
-/
set_option linter.unusedSectionVars false
namespace Verif.BTree
open Std Node
universe u v
variable {K : Type u} {V : Type v}

/-- btree.rs:1768-1773 `BdOrd`. -/
inductive BdOrd where
  | unbounded | less | equal (isIn : Bool) | greater

/-- btree.rs:1777-1791 `cmp_bd`: position of a bound relative to a key. -/
def cmpBd : Bnd K → K → BdOrd
  | .unbounded, _ => .unbounded
  | .excluded p, k =>
    match p k with
    | .lt => .less
    | .eq => .equal false
    | .gt => .greater
  | .included p, k =>
    match p k with
    | .lt => .less
    | .eq => .equal true
    | .gt => .greater

/-- btree.rs:1793-1801 `RangeEdges`. -/
structure Edges where
  lbE : Nat
  lbK : Nat
  lp : Bool
  ubE : Nat
  ubK : Nat
  rp : Bool

/-- btree.rs:1822-1850, the left edge: `lb_elems`, `lb_kids`, `left_needs_pruning`, and where
the scan stopped (`elems` is only peeked at). -/
def findL (lb : Bnd K) : Nat → List (K × V) → (Nat × Nat × Bool) × Nat × List (K × V)
  | i, [] => ((i, i, true), i, [])
  | i, e :: es =>
    match cmpBd lb e.1 with
    | .unbounded => ((0, 0, false), i, e :: es)
    | .less => ((i, i, true), i, e :: es)
    | .equal isIn => ((i + (!isIn).toNat, i + 1, false), i, e :: es)
    | .greater => findL lb (i + 1) es

/-- btree.rs:1852-1879, the right edge: `ub_elems`, `ub_kids`, `right_needs_pruning`. -/
def findR (len : Nat) (ub : Bnd K) : Nat → List (K × V) → Nat × Nat × Bool
  | _, [] => (len, len + 1, true)
  | i, e :: es =>
    match cmpBd ub e.1 with
    | .unbounded => (len, len + 1, false)
    | .less => (i, i + 1, true)
    | .equal isIn => (i + isIn.toNat, i + 1, false)
    | .greater => findR len ub (i + 1) es

/-- btree.rs:1803-1882 `find_range_edges`. -/
def findRangeEdges (lb ub : Bnd K) (es : List (K × V)) : Edges :=
  let l := findL lb 0 es
  let r := findR es.length ub l.2.1 l.2.2
  ⟨l.1.1, l.1.2.1, l.1.2.2, r.1, r.2.1, r.2.2⟩

/-- `slice.get(lb..ub).unwrap_or_default()` (btree.rs:1897-1901). -/
def getSlice {α : Type _} (l : List α) (lb ub : Nat) : List α :=
  if lb ≤ ub ∧ ub ≤ l.length then (l.take ub).drop lb else []

mutual
/-- btree.rs:1884-1938 `make_worklist` and 1940-1996 `make_mut_worklist` on a node; the work
list it appends. `none` is a panic: slicing `elems` (1896) or the assertion at 1908. -/
def mkWork : Bnd K → Bnd K → Node K V → Option (List (NIter (K × V) (Node K V)))
  | lb, ub, .mk es ks =>
    let ed := findRangeEdges lb ub es
    if ed.lbE ≤ ed.ubE ∧ ed.ubE ≤ es.length then
      let elems := (es.take ed.ubE).drop ed.lbE
      let kids := getSlice ks ed.lbK ed.ubK
      match
        (if ed.lp && !kids.isEmpty then
          if kids.length == 1 && ed.rp then
            if elems.isEmpty then mkWorkAt lb ub ed.lbK ks else none
          else mkWorkAt lb .unbounded ed.lbK ks
        else some []) with
      | none => none
      | some w1 =>
        let kids1 := if ed.lp then kids.tail else kids
        let kids2 := if ed.rp then kids1.dropLast else kids1
        let erg :=
          if elems.isEmpty && kids2.isEmpty then []
          else [⟨elems, kids2, !ed.lp && decide (ed.lbE = ed.lbK),
            !ed.rp && decide (ed.ubE < ed.ubK)⟩]
        match
          (if ed.rp && !kids1.isEmpty then
            mkWorkAt (if ed.lp then .unbounded else lb) ub (ed.ubK - 1) ks
          else some []) with
        | none => none
        | some w2 => some (w1 ++ erg ++ w2)
    else none
/-- The recursive calls, on the child at an index. -/
def mkWorkAt : Bnd K → Bnd K → Nat → List (Node K V) →
    Option (List (NIter (K × V) (Node K V)))
  | _, _, _, [] => some []
  | lb, ub, 0, c :: _ => mkWork lb ub c
  | lb, ub, i + 1, _ :: ks => mkWorkAt lb ub i ks
end

/-- A bound given by a borrowed key (`std::ops::Bound<&Q>`). -/
inductive QBnd (Q : Type _) where
  | unbounded
  | included (q : Q)
  | excluded (q : Q)

/-- What the bound says about stored keys; `f` is `Borrow::borrow`. -/
def QBnd.bnd {Q : Type _} [Ord Q] (f : K → Q) : QBnd Q → Bnd K
  | .unbounded => .unbounded
  | .included q => .included (fun k => compare q (f k))
  | .excluded q => .excluded (fun k => compare q (f k))

/-- btree.rs:2011-2019: both bounds present and `k2 < k1`. -/
def QBnd.bad {Q : Type _} [Ord Q] : QBnd Q → QBnd Q → Bool
  | .included a, .included b => compare b a == .lt
  | .included a, .excluded b => compare b a == .lt
  | .excluded a, .included b => compare b a == .lt
  | .excluded a, .excluded b => compare b a == .lt
  | _, _ => false

/-- btree.rs:2003-2036 `Range::new` (855-862 `range`), 2084-2118 `RangeMut::new`; `none` is a
panic. -/
def BTreeMap.range {Q : Type _} [Ord Q] (f : K → Q) (m : BTreeMap K V) (lb ub : QBnd Q) :
    Option (InnerIter (NIter (K × V) (Node K V))) :=
  if lb.bad ub then none
  else
    match m.root with
    | none => some ⟨[], m.len⟩
    | some n => (mkWork (lb.bnd f) (ub.bnd f) n).map (fun w => ⟨w, m.len⟩)

/-- btree.rs:2062-2070 `size_hint` of `Range` (and 2145-2153). -/
def sizeHint (N : Nat) (it : InnerIter (NIter (K × V) (Node K V))) : Nat × Nat :=
  ((it.work.map (fun e => e.elems.length + N * e.kids.length)).sum, it.len)

/-- The iterator after a schedule of calls. -/
def NodeIterOps.after {I : Type _} {E : Type _} {C : Type _} (o : NodeIterOps I E C) :
    List Bool → InnerIter I → Option (InnerIter I)
  | [], it => some it
  | d :: ds, it =>
    match o.step d it with
    | none => none
    | some (it', _) => o.after ds it'

/-- What remains of a list after a schedule. -/
def Spec.dequeRest {α : Type _} : List Bool → List α → List α
  | [], l => l
  | d :: ds, l => Spec.dequeRest ds (Spec.dequeStep d l).2

/-! ### The edges -/

/-- How the range cuts a node at one side: through a child (which needs pruning), before or
after a whole child, or before or after an element. -/
inductive Cut where
  | prune | kid | elem
  deriving DecidableEq

section
variable [Ord K] [TransOrd K]

theorem okLo_of_gt {lb : Bnd K} (h : lb.Lawful) {a b : K} (hab : compare a b = .lt)
    (ha : lb.okLo a = true) : lb.okLo b = true := by
  cases lb with
  | unbounded => rfl
  | included p =>
    have h : IsProbe p := h
    have := h.mono a b hab (by simpa [Bnd.okLo] using ha)
    simp [Bnd.okLo, this]
  | excluded p =>
    have h : IsProbe p := h
    have := h.lt_of_lt hab (by simpa [Bnd.okLo] using ha)
    simp [Bnd.okLo, this]

theorem not_okHi_of_gt {ub : Bnd K} (h : ub.Lawful) {a b : K} (hab : compare a b = .lt)
    (ha : ub.okHi a = false) : ub.okHi b = false := by
  cases ub with
  | unbounded => simp [Bnd.okHi] at ha
  | included p =>
    have h : IsProbe p := h
    have := h.lt_of_lt hab (by simpa [Bnd.okHi] using ha)
    simp [Bnd.okHi, this]
  | excluded p =>
    have h : IsProbe p := h
    have := h.mono a b hab (by simpa [Bnd.okHi] using ha)
    simp [Bnd.okHi, this]

theorem findR_spec {ub : Bnd K} (hub : ub.Lawful) : ∀ (es : List (K × V)) (i : Nat), Sorted es →
    ∃ M B, ∃ rk : Cut, es = M ++ B ∧
      findR (i + es.length) ub i es =
        (i + M.length, i + M.length + (if rk = .elem then 0 else 1), decide (rk = .prune)) ∧
      (∀ e ∈ M, ub.okHi e.1 = true) ∧ (∀ e ∈ B, ub.okHi e.1 = false) ∧
      (rk = .kid → ∀ k, (∀ e ∈ B, compare k e.1 = .lt) → ub.okHi k = true) ∧
      (rk = .elem → ∀ k, (∀ e ∈ M, compare e.1 k = .lt) → ub.okHi k = false) := by
  intro es
  induction es with
  | nil =>
    intro i _
    exact ⟨[], [], .prune, rfl, by simp [findR], by simp, by simp, by simp, by simp⟩
  | cons e es ih =>
    intro i hs
    obtain ⟨hs1, hs2⟩ := sorted_cons.1 hs
    obtain ⟨M, B, rk, h1, h2, h3, h4, h5, h6⟩ := ih (i + 1) hs2
    have hlen : i + (e :: es).length = i + 1 + es.length := by simp; omega
    rw [findR, hlen]
    have rest : ∀ (_ : ub.okHi e.1 = true) (_ : cmpBd ub e.1 = .greater), _ :=
      fun (ho : ub.okHi e.1 = true) (_ : cmpBd ub e.1 = .greater) =>
        (⟨e :: M, B, rk, by simp [h1], by rw [h2]; simp; omega,
          by intro x hx
             rcases List.mem_cons.1 hx with rfl | hx
             · exact ho
             · exact h3 x hx, h4, h5,
          fun hr k hk => h6 hr k (fun x hx => hk x (by simp [hx]))⟩ :
        ∃ M B, ∃ rk : Cut, e :: es = M ++ B ∧
          findR (i + 1 + es.length) ub (i + 1) es =
            (i + M.length, i + M.length + (if rk = .elem then 0 else 1), decide (rk = .prune)) ∧
          (∀ e ∈ M, ub.okHi e.1 = true) ∧ (∀ e ∈ B, ub.okHi e.1 = false) ∧
          (rk = .kid → ∀ k, (∀ e ∈ B, compare k e.1 = .lt) → ub.okHi k = true) ∧
          (rk = .elem → ∀ k, (∀ e ∈ M, compare e.1 k = .lt) → ub.okHi k = false))
    have below : ub.okHi e.1 = false → ∀ x ∈ e :: es, ub.okHi x.1 = false := by
      intro he x hx
      rcases List.mem_cons.1 hx with rfl | hx
      · exact he
      · exact not_okHi_of_gt hub (hs1 x hx) he
    cases ub with
    | unbounded =>
      exact ⟨e :: es, [], .kid, by simp, by simp [cmpBd]; omega, by simp [Bnd.okHi], by simp,
        by simp [Bnd.okHi], by simp⟩
    | included p =>
      have hp : IsProbe p := hub
      simp only [cmpBd] at rest ⊢
      cases hpe : p e.1 with
      | lt =>
        exact ⟨[], e :: es, .prune, rfl, by simp, by simp, below (by simp [Bnd.okHi, hpe]),
          by simp, by simp⟩
      | eq =>
        refine ⟨[e], es, .elem, rfl, by simp, by simp [Bnd.okHi, hpe], ?_, by simp, ?_⟩
        · intro x hx; simp [Bnd.okHi, hp.lt_of_eq (hs1 x hx) hpe]
        · intro _ k hk; simp [Bnd.okHi, hp.lt_of_eq (hk e (by simp)) hpe]
      | gt => exact rest (by simp [Bnd.okHi, hpe]) (by simp [hpe])
    | excluded p =>
      have hp : IsProbe p := hub
      simp only [cmpBd] at rest ⊢
      cases hpe : p e.1 with
      | lt =>
        exact ⟨[], e :: es, .prune, rfl, by simp, by simp, below (by simp [Bnd.okHi, hpe]),
          by simp, by simp⟩
      | eq =>
        refine ⟨[], e :: es, .kid, rfl, by simp, by simp, below (by simp [Bnd.okHi, hpe]), ?_,
          by simp⟩
        intro _ k hk; simp [Bnd.okHi, hp.gt_of_eq (hk e (by simp)) hpe]
      | gt => exact rest (by simp [Bnd.okHi, hpe]) (by simp [hpe])

/-- The scan for the left edge (for a bound that is present). -/
theorem findL_spec {p : K → Ordering} (hp : IsProbe p) (lb : Bnd K) (b : Bool)
    (hlb : lb = if b then .included p else .excluded p) :
    ∀ (es : List (K × V)) (i : Nat), Sorted es →
    ∃ A R, es = A ++ R ∧ (∀ e ∈ A, p e.1 = .gt) ∧
      (findL lb i es).2 = (i + A.length, R) ∧
      ((R = [] ∧ (findL lb i es).1 = (i + A.length, i + A.length, true)) ∨
       (∃ x R', R = x :: R' ∧ p x.1 = .lt ∧
          (findL lb i es).1 = (i + A.length, i + A.length, true)) ∨
       (∃ x R', R = x :: R' ∧ p x.1 = .eq ∧
          (findL lb i es).1 = (i + A.length + (!b).toNat, i + A.length + 1, false))) := by
  intro es
  induction es with
  | nil =>
    intro i _
    exact ⟨[], [], rfl, by simp, rfl, Or.inl ⟨rfl, rfl⟩⟩
  | cons e es ih =>
    intro i hs
    obtain ⟨hs1, hs2⟩ := sorted_cons.1 hs
    have hc : cmpBd lb e.1 =
        match p e.1 with | .lt => .less | .eq => .equal b | .gt => .greater := by
      subst hlb; cases b <;> rfl
    rw [findL, hc]
    cases hpe : p e.1 with
    | lt => exact ⟨[], e :: es, rfl, by simp, rfl, Or.inr (Or.inl ⟨e, es, rfl, hpe, rfl⟩)⟩
    | eq => exact ⟨[], e :: es, rfl, by simp, rfl, Or.inr (Or.inr ⟨e, es, rfl, hpe, rfl⟩)⟩
    | gt =>
      obtain ⟨A, R, h1, h2, h3, h4⟩ := ih (i + 1) hs2
      refine ⟨e :: A, R, by simp [h1], ?_, ?_, ?_⟩
      · intro x hx
        rcases List.mem_cons.1 hx with rfl | hx
        · exact hpe
        · exact h2 x hx
      · rw [h3]; simp; omega
      · have e1 : i + 1 + A.length = i + (e :: A).length := by simp; omega
        rw [e1] at h4
        exact h4

/-- No stored key is a common excluded bound. -/
def Compat (lb ub : Bnd K) (l : List (K × V)) : Prop :=
  ∀ e ∈ l, ∀ p, lb = .excluded p → p e.1 = .eq → ub.okHi e.1 = true

/-- What `find_range_edges` computes. -/
structure EdgesOk (lb ub : Bnd K) (es : List (K × V)) (ed : Edges) (A M B : List (K × V))
    (lk rk : Cut) : Prop where
  split : es = A ++ (M ++ B)
  lbE : ed.lbE = A.length
  lbK : ed.lbK = A.length + (if lk = .elem then 1 else 0)
  lp : ed.lp = decide (lk = .prune)
  ubE : ed.ubE = A.length + M.length
  ubK : ed.ubK = A.length + M.length + (if rk = .elem then 0 else 1)
  rp : ed.rp = decide (rk = .prune)
  hA : ∀ e ∈ A, lb.okLo e.1 = false
  hM : ∀ e ∈ M, lb.okLo e.1 = true ∧ ub.okHi e.1 = true
  hB : ∀ e ∈ B, ub.okHi e.1 = false
  lKid : lk = .kid → ∀ k, (∀ e ∈ A, compare e.1 k = .lt) → lb.okLo k = true
  lElem : lk = .elem → ∀ k, (∀ e ∈ M ++ B, compare k e.1 = .lt) → lb.okLo k = false
  rKid : rk = .kid → ∀ k, (∀ e ∈ B, compare k e.1 = .lt) → ub.okHi k = true
  rElem : rk = .elem → ∀ k, (∀ e ∈ A ++ M, compare e.1 k = .lt) → ub.okHi k = false

theorem edges_spec {lb ub : Bnd K} (hlb : lb.Lawful) (hub : ub.Lawful) {es : List (K × V)}
    (hs : Sorted es) (hc : Compat lb ub es) :
    ∃ A M B lk rk, EdgesOk lb ub es (findRangeEdges lb ub es) A M B lk rk := by
  -- a bound that is present
  have main : ∀ (p : K → Ordering) (b : Bool), IsProbe p →
      lb = (if b then .included p else .excluded p) →
      ∃ A M B lk rk, EdgesOk lb ub es (findRangeEdges lb ub es) A M B lk rk := by
    intro p b hp hl
    have hex : b = false → lb = .excluded p := by intro hb; rw [hl, hb]; rfl
    have hlt : ∀ k, p k = .lt → lb.okLo k = true := by
      intro k hk; rw [hl]; cases b <;> simp [Bnd.okLo, hk]
    have hgt : ∀ k, p k = .gt → lb.okLo k = false := by
      intro k hk; rw [hl]; cases b <;> simp [Bnd.okLo, hk]
    have heq : ∀ k, p k = .eq → lb.okLo k = b := by
      intro k hk; rw [hl]; cases b <;> simp [Bnd.okLo, hk]
    obtain ⟨A, R, e1, hA', e2, h3⟩ := findL_spec hp lb b hl es 0 hs
    have hA : ∀ e ∈ A, lb.okLo e.1 = false := fun e he => hgt _ (hA' e he)
    simp only [Nat.zero_add] at e2 h3
    have hsR : Sorted R := (sorted_append.1 (e1 ▸ hs)).2.1
    obtain ⟨M, B, rk, r1, r2, r3, r4, r5, r6⟩ := findR_spec hub R A.length hsR
    have hlen : es.length = A.length + R.length := by rw [e1]; simp
    have hed : findRangeEdges lb ub es =
        ⟨(findL lb 0 es).1.1, (findL lb 0 es).1.2.1, (findL lb 0 es).1.2.2,
          A.length + M.length, A.length + M.length + (if rk = .elem then 0 else 1),
          decide (rk = .prune)⟩ := by
      simp only [findRangeEdges, e2, hlen, r2]
    -- the bound falls strictly between elements
    have gen : (∀ e ∈ R, lb.okLo e.1 = true) →
        (findL lb 0 es).1 = (A.length, A.length, true) →
        ∃ A M B lk rk, EdgesOk lb ub es (findRangeEdges lb ub es) A M B lk rk := by
      intro hR hl
      rw [hed, hl]
      exact ⟨A, M, B, .prune, rk,
        { split := by rw [e1, r1], lbE := rfl, lbK := by simp, lp := by simp, ubE := rfl,
          ubK := rfl, rp := rfl, hA := hA,
          hM := fun e he => ⟨hR e (by rw [r1]; simp [he]), r3 e he⟩,
          hB := r4, lKid := by simp, lElem := by simp, rKid := r5,
          rElem := fun h k hk => r6 h k (fun e he => hk e (by simp [he])) }⟩
    rcases h3 with ⟨hR, hl3⟩ | ⟨x, R', hR, hx, hl3⟩ | ⟨x, R', hR, hx, hl3⟩
    · exact gen (by simp [hR]) hl3
    · refine gen ?_ hl3
      intro e he
      rw [hR] at he hsR
      rcases List.mem_cons.1 he with rfl | he
      · exact hlt _ hx
      · exact hlt _ (hp.lt_of_lt ((sorted_cons.1 hsR).1 e he) hx)
    · rw [hR] at hsR
      have hxs := (sorted_cons.1 hsR).1
      cases b with
      | true =>
        rw [hed, hl3]
        refine ⟨A, M, B, .elem, rk,
          { split := by rw [e1, r1], lbE := by simp, lbK := by simp, lp := by simp, ubE := rfl,
            ubK := rfl, rp := rfl, hA := hA, hM := ?_, hB := r4, lKid := by simp, lElem := ?_,
            rKid := r5, rElem := fun h k hk => r6 h k (fun e he => hk e (by simp [he])) }⟩
        · intro e he
          refine ⟨?_, r3 e he⟩
          have : e ∈ x :: R' := by rw [← hR, r1]; simp [he]
          rcases List.mem_cons.1 this with rfl | h
          · rw [heq _ hx]
          · exact hlt _ (hp.lt_of_eq (hxs e h) hx)
        · intro _ k hk
          have : x ∈ M ++ B := by rw [← r1, hR]; simp
          exact hgt _ (hp.gt_of_eq (hk x this) hx)
      | false =>
        -- the excluded key itself is skipped
        have hok : ub.okHi x.1 = true := hc x (by rw [e1, hR]; simp) p (hex rfl) hx
        cases M with
        | nil =>
          have : x ∈ B := by
            have : x ∈ R := by rw [hR]; simp
            rw [r1] at this; simpa using this
          rw [r4 x this] at hok; simp at hok
        | cons y M =>
          have hy : y = x ∧ R' = M ++ B := by
            have := r1; rw [hR] at this; simp at this; exact ⟨this.1.symm, this.2⟩
          obtain ⟨rfl, hR'⟩ := hy
          rw [hed, hl3]
          refine ⟨A ++ [y], M, B, .kid, rk,
            { split := by rw [e1, r1]; simp, lbE := by simp, lbK := by simp, lp := by simp,
              ubE := by simp; omega, ubK := by simp; omega, rp := rfl, hA := ?_, hM := ?_,
              hB := r4, lKid := ?_, lElem := by simp, rKid := r5,
              rElem := fun h k hk => r6 h k (fun e he => hk e (by simp at he ⊢; rcases he with h | h <;> simp [h])) }⟩
          · intro e he
            simp only [List.mem_append, List.mem_singleton] at he
            rcases he with he | rfl
            · exact hA e he
            · rw [heq _ hx]
          · intro e he
            exact ⟨hlt _ (hp.lt_of_eq (hxs e (by rw [hR']; simp [he])) hx), r3 e (by simp [he])⟩
          · intro _ k hk
            exact hlt _ (hp.lt_of_eq (hk y (by simp)) hx)
  cases lb with
  | included p => exact main p true hlb rfl
  | excluded p => exact main p false hlb rfl
  | unbounded =>
    obtain ⟨M, B, rk, r1, r2, r3, r4, r5, r6⟩ := findR_spec hub es 0 hs
    have hl : findL (.unbounded : Bnd K) 0 es =
        ((0, 0, es.isEmpty), 0, es) := by
      cases es <;> simp [findL, cmpBd]
    have hed : findRangeEdges (.unbounded : Bnd K) ub es =
        ⟨0, 0, es.isEmpty, M.length, M.length + (if rk = .elem then 0 else 1),
          decide (rk = .prune)⟩ := by
      simp only [Nat.zero_add] at r2
      simp only [findRangeEdges, hl, r2]
    rw [hed]
    refine ⟨[], M, B, if es.isEmpty then .prune else .kid, rk,
      { split := r1, lbE := rfl, lbK := by cases es <;> simp, lp := by cases es <;> simp, ubE := by simp,
        ubK := by simp, rp := rfl, hA := by simp, hM := fun e he => ⟨rfl, r3 e he⟩, hB := r4,
        lKid := fun _ _ _ => rfl, lElem := by cases es <;> simp, rKid := r5,
        rElem := fun h k hk => r6 h k (fun e he => hk e (by simpa using he)) }⟩

/-! ### The work list -/

theorem mkWorkAt_append (lb ub : Bnd K) (c : Node K V) (kB : List (Node K V)) :
    ∀ kA : List (Node K V), mkWorkAt lb ub kA.length (kA ++ c :: kB) = mkWork lb ub c
  | [] => by simp [mkWorkAt]
  | d :: kA => by simp [mkWorkAt, mkWorkAt_append lb ub c kB kA]

theorem getSlice_mid {α : Type _} (X Y Z : List α) {i j : Nat} (hi : i = X.length)
    (hj : j = X.length + Y.length) : getSlice (X ++ (Y ++ Z)) i j = Y := by
  subst hi hj
  rw [getSlice, if_pos (by simp)]
  simp [List.take_append]

theorem getSlice_nil {α : Type _} (i j : Nat) : getSlice ([] : List α) i j = [] := by
  simp [getSlice]

theorem getSlice_empty {α : Type _} (l : List α) {i j : Nat} (h : j ≤ i) :
    getSlice l i j = [] := by
  rw [getSlice]; split
  · simp; omega
  · rfl

theorem inter_bound : ∀ {kA : List (Node K V)} {A : List (K × V)}, kA.length = A.length →
    Sorted (inter kA A) → ∀ e ∈ inter kA A, ∃ a ∈ A, e = a ∨ compare e.1 a.1 = .lt := by
  intro kA
  induction kA with
  | nil => intro A h _ e he; cases A <;> simp_all
  | cons c kA ih =>
    intro A h hs e he
    cases A with
    | nil => simp at h
    | cons a A =>
      rw [inter_cons, post_cons] at hs he
      obtain ⟨s1, s2, s3⟩ := sorted_append.1 hs
      rcases List.mem_append.1 he with he | he
      · exact ⟨a, by simp, Or.inr (s3 e he a (by simp))⟩
      · rcases List.mem_cons.1 he with rfl | he
        · exact ⟨e, by simp, Or.inl rfl⟩
        · obtain ⟨x, hx, h'⟩ := ih (by simpa using h) (sorted_cons.1 s2).2 e he
          exact ⟨x, by simp [hx], h'⟩

theorem post_bound : ∀ {B : List (K × V)} {kB : List (Node K V)}, kB.length = B.length →
    Sorted (post B kB) → ∀ e ∈ post B kB, ∃ b ∈ B, e = b ∨ compare b.1 e.1 = .lt := by
  intro B
  cases B with
  | nil => intro kB h _ e he; cases kB <;> simp_all
  | cons b B =>
    intro kB h hs e he
    rw [post_cons] at hs he
    rcases List.mem_cons.1 he with rfl | he
    · exact ⟨e, by simp, Or.inl rfl⟩
    · exact ⟨b, by simp, Or.inr ((sorted_cons.1 hs).1 e he)⟩

theorem ilvE_bound : ∀ {M : List (K × V)} {mid : List (Node K V)}, M.length = mid.length + 1 →
    Sorted (ilvE toList M mid) → ∀ e ∈ ilvE toList M mid,
      (∃ b ∈ M, e = b ∨ compare b.1 e.1 = .lt) ∧ (∃ a ∈ M, e = a ∨ compare e.1 a.1 = .lt) := by
  intro M mid
  induction mid generalizing M with
  | nil =>
    intro h hs e he
    obtain ⟨x, rfl⟩ := List.length_eq_one_iff.1 h
    simp at he; simp [he]
  | cons c mid ih =>
    intro h hs e he
    cases M with
    | nil => simp at h
    | cons m M =>
      rw [ilvE_cons, ilv_cons] at hs he
      have hm := (sorted_cons.1 hs)
      obtain ⟨s1, s2, s3⟩ := sorted_append.1 hm.2
      rcases List.mem_cons.1 he with rfl | he
      · exact ⟨⟨e, by simp, Or.inl rfl⟩, ⟨e, by simp, Or.inl rfl⟩⟩
      · refine ⟨⟨m, by simp, Or.inr (hm.1 e he)⟩, ?_⟩
        rcases List.mem_append.1 he with he' | he'
        · cases M with
          | nil => simp at h
          | cons m' M =>
            exact ⟨m', by simp, Or.inr (s3 e he' m' (by simp))⟩
        · obtain ⟨-, a, ha, h'⟩ := ih (by simpa using h) s2 e he'
          exact ⟨a, by simp [ha], h'⟩

theorem post_split : ∀ {M B : List (K × V)} {mid kB : List (Node K V)} {d : Node K V},
    M.length = mid.length + 1 →
    post (M ++ B) (mid ++ d :: kB) = ilvE toList M mid ++ (toList d ++ post B kB) := by
  intro M B mid
  induction mid generalizing M with
  | nil =>
    intro kB d h
    obtain ⟨x, rfl⟩ := List.length_eq_one_iff.1 h
    simp [inter_cons]
  | cons c mid ih =>
    intro kB d h
    cases M with
    | nil => simp at h
    | cons m M =>
      simp only [List.cons_append, post_cons, inter_cons, ilvE_cons, ilv_cons]
      rw [ih (by simpa using h)]
      simp

theorem ilvE_snoc : ∀ {M : List (K × V)} {mid : List (Node K V)} (d : Node K V),
    M.length = mid.length + 1 →
    ilvE toList M (mid ++ [d]) = ilvE toList M mid ++ toList d := by
  intro M mid d h
  have h1 := post_split (B := []) (kB := []) (d := d) h
  simp only [List.append_nil, post_nil_nil] at h1
  rw [← h1]
  cases M with
  | nil => simp at h
  | cons m M => rw [post_cons, ilvE_cons, inter_ilv]

theorem elems_sublist : ∀ (ks : List (Node K V)) (es : List (K × V)), es.Sublist (inter ks es)
  | [], es => by simp
  | c :: ks, [] => by simp
  | c :: ks, e :: es => by
    rw [inter_cons, post_cons]
    exact List.Sublist.trans ((elems_sublist ks es).cons₂ e) (List.sublist_append_right _ _)

theorem mem_inter_of_elem (ks : List (Node K V)) {es : List (K × V)} :
    ∀ e ∈ es, e ∈ inter ks es := fun _ he => (elems_sublist ks es).subset he

theorem mem_post_of_elem (ks : List (Node K V)) {es : List (K × V)} :
    ∀ e ∈ es, e ∈ post es ks := by
  intro e he
  cases es with
  | nil => simp at he
  | cons x es =>
    rw [post_cons]
    rcases List.mem_cons.1 he with rfl | he
    · simp
    · simp [mem_inter_of_elem ks e he]

theorem mem_ilvE_of_elem (ks : List (Node K V)) {es : List (K × V)} :
    ∀ e ∈ es, e ∈ ilvE toList es ks := by
  intro e he
  cases es with
  | nil => simp at he
  | cons x es =>
    rw [ilvE_cons, ← inter_ilv]
    rcases List.mem_cons.1 he with rfl | he
    · simp
    · simp [mem_inter_of_elem ks e he]

theorem Compat.mono {lb ub : Bnd K} {l l' : List (K × V)} (h : Compat lb ub l)
    (hs : ∀ e ∈ l', e ∈ l) : Compat lb ub l' := fun e he p hp => h e (hs e he) p hp
theorem Compat.unbL {ub : Bnd K} {l : List (K × V)} : Compat .unbounded ub l := by
  intro e _ p hp; simp at hp
theorem Compat.unbR {lb : Bnd K} {l : List (K × V)} : Compat lb .unbounded l := by
  intro e _ p _ _; rfl

/-- Nodes of the range iterators: every child of a node is a proper, well-formed node. -/
def KidOk (N : Nat) (c : Node K V) : Prop := ∃ h, Node.Ok N N h c

/-- The work list of a range holds exactly the entries in range, and is well shaped. -/
def WorkOk (N : Nat) (r : Option (List (NIter (K × V) (Node K V)))) (l : List (K × V)) : Prop :=
  ∃ w, r = some w ∧ (∀ e ∈ w, e.Ok true (KidOk N)) ∧ witems toList w = l

theorem witems_append (w1 w2 : List (NIter (K × V) (Node K V))) :
    witems toList (w1 ++ w2) = witems toList w1 ++ witems toList w2 := by
  simp [witems]

theorem WorkOk.nil (N : Nat) : WorkOk (K := K) (V := V) N (some []) [] :=
  ⟨[], rfl, by simp, rfl⟩

theorem mkWork_spec {N : Nat} (hN : 1 ≤ N) : ∀ (h lo : Nat) (n : Node K V), Node.Ok N lo h n →
    1 ≤ lo → Sorted n.toList → ∀ (lb ub : Bnd K), lb.Lawful → ub.Lawful →
    Compat lb ub n.toList → WorkOk N (mkWork lb ub n) (Spec.range lb ub n.toList) := by
  intro h
  induction h with
  | zero =>
    intro lo n hn hlo hs lb ub hlb hub hc
    obtain ⟨es, ks⟩ := n
    obtain ⟨rfl, -, -⟩ := hn
    simp only [toList_mk, inter_nil] at hs hc ⊢
    obtain ⟨A, M, B, lk, rk, E⟩ := edges_spec hlb hub hs hc
    have hsl : (es.take (A.length + M.length)).drop A.length = M := by
      rw [E.split]; simp [List.take_append]
    have hr : Spec.range lb ub es = M := by
      have fA : A.filter (fun e => lb.okLo e.1 && ub.okHi e.1) = [] := by
        rw [List.filter_eq_nil_iff]; intro e he; simp [E.hA e he]
      have fB : B.filter (fun e => lb.okLo e.1 && ub.okHi e.1) = [] := by
        rw [List.filter_eq_nil_iff]; intro e he; simp [E.hB e he]
      have fM : M.filter (fun e => lb.okLo e.1 && ub.okHi e.1) = M := by
        rw [List.filter_eq_self]; intro e he; simp [E.hM e he]
      rw [Spec.range, E.split, List.filter_append, List.filter_append, fA, fB, fM]; simp
    have hle : A.length + M.length ≤ es.length := by rw [E.split]; simp
    rw [mkWork]
    simp only [E.lbE, E.ubE, hsl, getSlice_nil]
    rw [if_pos ⟨by omega, hle⟩, hr]
    cases M with
    | nil => simpa [mkWorkAt] using WorkOk.nil N
    | cons m M =>
      simp only [List.isEmpty_nil, Bool.not_true, Bool.and_false, Bool.false_eq_true, if_false,
        List.tail_nil, ite_self, List.dropLast_nil, List.isEmpty_cons, Bool.false_and,
        List.nil_append, List.append_nil]
      refine ⟨_, rfl, ?_, ?_⟩
      · intro e he
        simp only [List.mem_singleton] at he
        subst he
        exact ⟨by simp, Or.inl ⟨rfl, by simp⟩⟩
      · simp [NIter.items]
  | succ h ih =>
    intro lo n hn hlo hs lb ub hlb hub hc
    obtain ⟨es, ks⟩ := n
    obtain ⟨hkl, -, -, hkok⟩ := hn
    have hkid : ∀ c ∈ ks, KidOk N c := fun c hc => ⟨h, hkok c hc⟩
    simp only [toList_mk] at hs hc ⊢
    have hsub : ∀ e ∈ es, e ∈ inter ks es := mem_inter_of_elem ks
    have hses : Sorted es := hs.sublist (elems_sublist ks es)
    obtain ⟨A, M, B, lk, rk, E⟩ := edges_spec hlb hub hses (hc.mono hsub)
    have hle : A.length + M.length ≤ es.length := by rw [E.split]; simp
    have hsl : (es.take (A.length + M.length)).drop A.length = M := by
      rw [E.split]; simp [List.take_append]
    -- the children around the cut
    obtain ⟨kA, kR0, hk1, hkA⟩ := split_len ks A.length (by omega)
    have hkR0 : kR0.length = M.length + B.length + 1 := by
      have := congrArg List.length hk1
      have := congrArg List.length E.split
      simp at *; omega
    obtain ⟨ca, kR, rfl⟩ : ∃ ca kR, kR0 = ca :: kR := by
      cases kR0 with
      | nil => simp at hkR0
      | cons c r => exact ⟨c, r, rfl⟩
    have hkR : kR.length = M.length + B.length := by simpa using hkR0
    have hL : inter ks es = inter kA A ++ (toList ca ++ post (M ++ B) kR) := by
      rw [hk1, E.split, inter_append hkA, inter_cons]
    rw [hL] at hs
    obtain ⟨sA, sR, sAR⟩ := sorted_append.1 hs
    obtain ⟨sca, sP, scP⟩ := sorted_append.1 sR
    have fA : (inter kA A).filter (fun e => lb.okLo e.1 && ub.okHi e.1) = [] := by
      rw [List.filter_eq_nil_iff]; intro e he
      obtain ⟨a, ha, h1⟩ := inter_bound hkA sA e he
      have : lb.okLo e.1 = false := by
        rcases h1 with rfl | h1
        · exact E.hA _ ha
        · cases hx : lb.okLo e.1 with
          | false => rfl
          | true => rw [← E.hA a ha, okLo_of_gt hlb h1 hx]
      simp [this]
    have hmemA : ∀ a ∈ A, a ∈ inter kA A := mem_inter_of_elem kA
    have hmemP : ∀ a ∈ M ++ B, a ∈ post (M ++ B) kR := mem_post_of_elem kR
    have hAca : ∀ e ∈ toList ca, ∀ a ∈ A, compare a.1 e.1 = .lt := fun e he a ha =>
      sAR a (hmemA a ha) e (by simp [he])
    have hcaMB : ∀ e ∈ toList ca, ∀ a ∈ M ++ B, compare e.1 a.1 = .lt := fun e he a ha =>
      scP e he a (hmemP a ha)
    have hcaok : Node.Ok N N h ca := hkok ca (by rw [hk1]; simp)
    have hcasub : ∀ e ∈ toList ca, e ∈ inter ks es := fun e he => by rw [hL]; simp [he]
    have lk1 : lk = .kid → ∀ e ∈ toList ca, lb.okLo e.1 = true := fun hl e he =>
      E.lKid hl e.1 (hAca e he)
    have lk2 : lk = .elem → ∀ e ∈ toList ca, lb.okLo e.1 = false := fun hl e he =>
      E.lElem hl e.1 (hcaMB e he)
    rw [mkWork]
    simp only [E.lbE, E.ubE, E.lp, E.rp, hsl]
    rw [if_pos ⟨by omega, hle⟩]
    have hmkca : ∀ lb' ub', mkWorkAt lb' ub' A.length ks = mkWork lb' ub' ca := by
      intro lb' ub'; rw [hk1, ← hkA]; exact mkWorkAt_append lb' ub' ca kR kA
    cases M with
    | nil =>
      have hpB : ∀ e ∈ post B kR, ub.okHi e.1 = false := by
        intro e he
        obtain ⟨b, hb, h1⟩ := post_bound (by simpa using hkR) sP e he
        rcases h1 with rfl | h1
        · exact E.hB _ hb
        · exact not_okHi_of_gt hub h1 (E.hB b hb)
      have fB : (post B kR).filter (fun e => lb.okLo e.1 && ub.okHi e.1) = [] := by
        rw [List.filter_eq_nil_iff]; intro e he; simp [hpB e he]
      have rk1 : rk = .kid → ∀ e ∈ toList ca, ub.okHi e.1 = true := fun hl e he =>
        E.rKid hl e.1 (fun b hb => hcaMB e he b (by simp [hb]))
      have rk2 : rk = .elem → ∀ e ∈ toList ca, ub.okHi e.1 = false := fun hl e he =>
        E.rElem hl e.1 (fun b hb => hAca e he b (by simpa using hb))
      have hL2 : Spec.range lb ub (inter ks es) =
          (toList ca).filter (fun e => lb.okLo e.1 && ub.okHi e.1) := by
        rw [Spec.range, hL, List.filter_append, List.filter_append, fA]
        simp only [List.nil_append, fB, List.append_nil]
      rw [hL2]
      have hca := ih N ca hcaok hN sca
      by_cases hEl : lk = .elem ∨ rk = .elem
      · have hk : getSlice ks ((findRangeEdges lb ub es).lbK) ((findRangeEdges lb ub es).ubK) = [] := by
          apply getSlice_empty
          rw [E.lbK, E.ubK]
          rcases hEl with rfl | rfl <;> simp
          split <;> omega
        have hf : (toList ca).filter (fun e => lb.okLo e.1 && ub.okHi e.1) = [] := by
          rw [List.filter_eq_nil_iff]; intro e he
          rcases hEl with hEl | hEl
          · simp [lk2 hEl e he]
          · simp [rk2 hEl e he]
        rw [hk, hf]
        simpa using WorkOk.nil N
      · simp only [not_or] at hEl
        have hk : getSlice ks ((findRangeEdges lb ub es).lbK) ((findRangeEdges lb ub es).ubK) = [ca] := by
          rw [E.lbK, E.ubK, if_neg hEl.1, if_neg hEl.2, hk1]
          exact getSlice_mid kA [ca] kR (by simp [hkA]) (by simp [hkA])
        have hub1 : (findRangeEdges lb ub es).ubK - 1 = A.length := by
          rw [E.ubK, if_neg hEl.2]; simp
        rw [hk, hub1, E.lbK, E.ubK]
        simp only [hmkca]
        cases lk with
        | elem => simp at hEl
        | prune =>
          cases rk with
          | elem => simp at hEl
          | prune =>
            obtain ⟨w, h1, h2, h3⟩ := hca lb ub hlb hub (hc.mono hcasub)
            simp [h1, hmkca]
            exact ⟨w, rfl, h2, h3⟩
          | kid =>
            obtain ⟨w, h1, h2, h3⟩ := hca lb .unbounded hlb trivial Compat.unbR
            have : (toList ca).filter (fun e => lb.okLo e.1 && ub.okHi e.1) =
                Spec.range lb .unbounded (toList ca) := by
              rw [Spec.range]
              apply List.filter_congr; intro e he; rw [rk1 rfl e he]; simp [Bnd.okHi]
            rw [this]
            simp [h1, hmkca]
            exact ⟨w, rfl, h2, h3⟩
        | kid =>
          cases rk with
          | elem => simp at hEl
          | prune =>
            obtain ⟨w, h1, h2, h3⟩ := hca lb ub hlb hub (hc.mono hcasub)
            simp [h1, hmkca]
            exact ⟨w, rfl, h2, h3⟩
          | kid =>
            have : (toList ca).filter (fun e => lb.okLo e.1 && ub.okHi e.1) = toList ca := by
              rw [List.filter_eq_self]; intro e he; simp [rk1 rfl e he, lk1 rfl e he]
            rw [this]
            simp only [List.isEmpty_nil, List.isEmpty_cons]
            refine ⟨[⟨[], [ca], true, true⟩], by simp, ?_, ?_⟩
            · intro e he
              simp only [List.mem_singleton] at he
              subst he
              exact ⟨by simpa using ⟨h, hcaok⟩, Or.inr ⟨by simp, true, by simp, fun _ => rfl⟩⟩
            · simp [NIter.items, ilv_cons]
    | cons m M' =>
      generalize hM : m :: M' = M at *
      have hMne : M.isEmpty = false := by rw [← hM]; rfl
      have hMpos : 1 ≤ M.length := by rw [← hM]; simp
      obtain ⟨mid, kR1, hkR1, hmid⟩ := split_len kR (M.length - 1) (by omega)
      obtain ⟨d, kB, rfl⟩ : ∃ d kB, kR1 = d :: kB := by
        cases kR1 with
        | nil => rw [hkR1] at hkR; simp at hkR; omega
        | cons c r => exact ⟨c, r, rfl⟩
      have hml : M.length = mid.length + 1 := by omega
      have hkB : kB.length = B.length := by rw [hkR1] at hkR; simp at hkR; omega
      rw [hkR1, post_split hml] at sP scP hL
      obtain ⟨sM, sdB, sMdB⟩ := sorted_append.1 sP
      obtain ⟨sd, sB, sdBB⟩ := sorted_append.1 sdB
      have hmemM : ∀ a ∈ M, a ∈ ilvE toList M mid := mem_ilvE_of_elem mid
      have hmemB : ∀ a ∈ B, a ∈ post B kB := mem_post_of_elem kB
      have hdok : Node.Ok N N h d := hkok d (by rw [hk1, hkR1]; simp)
      have hdsub : ∀ e ∈ toList d, e ∈ inter ks es := fun e he => by rw [hL]; simp [he]
      have hmidok : ∀ c ∈ mid, KidOk N c := fun c hc => hkid c (by rw [hk1, hkR1]; simp [hc])
      have hMd : ∀ e ∈ toList d, ∀ a ∈ M, compare a.1 e.1 = .lt := fun e he a ha =>
        sMdB a (hmemM a ha) e (by simp [he])
      have hdlo : ∀ e ∈ toList d, lb.okLo e.1 = true := by
        intro e he
        have hmM : m ∈ M := by rw [← hM]; simp
        exact okLo_of_gt hlb (hMd e he m hmM) (E.hM m hmM).1
      have hcahi : ∀ e ∈ toList ca, ub.okHi e.1 = true := by
        intro e he
        have hmM : m ∈ M := by rw [← hM]; simp
        cases hx : ub.okHi e.1 with
        | true => rfl
        | false =>
          rw [← (E.hM m hmM).2, not_okHi_of_gt hub (hcaMB e he m (by simp [hmM])) hx]
      have rk1 : rk = .kid → ∀ e ∈ toList d, ub.okHi e.1 = true := fun hl e he =>
        E.rKid hl e.1 (fun b hb => sdBB e he b (hmemB b hb))
      have rk2 : rk = .elem → ∀ e ∈ toList d, ub.okHi e.1 = false := fun hl e he =>
        E.rElem hl e.1 (fun b hb => by
          rcases List.mem_append.1 hb with hb | hb
          · exact sAR b (hmemA b hb) e (by rw [hkR1, post_split hml]; simp [he])
          · exact hMd e he b hb)
      have hpB : ∀ e ∈ post B kB, ub.okHi e.1 = false := by
        intro e he
        obtain ⟨b, hb, h1⟩ := post_bound hkB sB e he
        rcases h1 with rfl | h1
        · exact E.hB _ hb
        · exact not_okHi_of_gt hub h1 (E.hB b hb)
      have fB : (post B kB).filter (fun e => lb.okLo e.1 && ub.okHi e.1) = [] := by
        rw [List.filter_eq_nil_iff]; intro e he; simp [hpB e he]
      have fM : (ilvE toList M mid).filter (fun e => lb.okLo e.1 && ub.okHi e.1) =
          ilvE toList M mid := by
        rw [List.filter_eq_self]; intro e he
        obtain ⟨⟨b, hb, h1⟩, ⟨a, ha, h2⟩⟩ := ilvE_bound hml sM e he
        have e1 : lb.okLo e.1 = true := by
          rcases h1 with rfl | h1
          · exact (E.hM _ hb).1
          · exact okLo_of_gt hlb h1 (E.hM b hb).1
        have e2 : ub.okHi e.1 = true := by
          rcases h2 with rfl | h2
          · exact (E.hM _ ha).2
          · cases hx : ub.okHi e.1 with
            | true => rfl
            | false => rw [← (E.hM a ha).2, not_okHi_of_gt hub h2 hx]
        simp [e1, e2]
      have hL2 : Spec.range lb ub (inter ks es) =
          (toList ca).filter (fun e => lb.okLo e.1) ++ (ilvE toList M mid ++
            (toList d).filter (fun e => ub.okHi e.1)) := by
        have f1 : (toList ca).filter (fun e => lb.okLo e.1 && ub.okHi e.1) =
            (toList ca).filter (fun e => lb.okLo e.1) :=
          List.filter_congr (fun e he => by simp [hcahi e he])
        have f2 : (toList d).filter (fun e => lb.okLo e.1 && ub.okHi e.1) =
            (toList d).filter (fun e => ub.okHi e.1) :=
          List.filter_congr (fun e he => by simp [hdlo e he])
        rw [Spec.range, hL]
        simp only [List.filter_append, fA, fB, fM, f1, f2, List.nil_append, List.append_nil]
      rw [hL2]
      -- the slice of children
      have hk : getSlice ks ((findRangeEdges lb ub es).lbK) ((findRangeEdges lb ub es).ubK) =
          (if lk = .elem then [] else [ca]) ++ (mid ++ (if rk = .elem then [] else [d])) := by
        rw [E.lbK, E.ubK, hk1, hkR1]
        by_cases hl : lk = .elem <;> by_cases hr : rk = .elem <;>
          simp only [hl, hr, if_true, if_false]
        · rw [show kA ++ ca :: (mid ++ d :: kB) = (kA ++ [ca]) ++ (mid ++ (d :: kB)) by simp]
          rw [getSlice_mid _ _ _ (by simp [hkA]) (by simp [hkA]; omega)]; simp
        · rw [show kA ++ ca :: (mid ++ d :: kB) = (kA ++ [ca]) ++ ((mid ++ [d]) ++ kB) by simp]
          rw [getSlice_mid _ _ _ (by simp [hkA]) (by simp [hkA]; omega)]; simp
        · rw [show kA ++ ca :: (mid ++ d :: kB) = kA ++ ((ca :: mid) ++ (d :: kB)) by simp]
          rw [getSlice_mid _ _ _ (by simp [hkA]) (by simp [hkA]; omega)]; simp
        · rw [show kA ++ ca :: (mid ++ d :: kB) = kA ++ ((ca :: mid ++ [d]) ++ kB) by simp]
          rw [getSlice_mid _ _ _ (by simp [hkA]) (by simp [hkA]; omega)]; simp
      have hmkd : ∀ lb' ub', mkWorkAt lb' ub' (A.length + M.length) ks = mkWork lb' ub' d := by
        intro lb' ub'
        have e1 : ks = (kA ++ ca :: mid) ++ d :: kB := by rw [hk1, hkR1]; simp
        have e2 : A.length + M.length = (kA ++ ca :: mid).length := by simp [hkA]; omega
        rw [e1, e2]; exact mkWorkAt_append lb' ub' d kB _
      obtain ⟨w1, a1, a2, a3⟩ := ih N ca hcaok hN sca lb .unbounded hlb trivial Compat.unbR
      have a3' : witems toList w1 = (toList ca).filter (fun e => lb.okLo e.1) := by
        rw [a3, Spec.range]; apply List.filter_congr; intro e _; simp [Bnd.okHi]
      obtain ⟨w2, b1, b2, b3⟩ := ih N d hdok hN sd .unbounded ub trivial hub Compat.unbL
      have b3' : witems toList w2 = (toList d).filter (fun e => ub.okHi e.1) := by
        rw [b3, Spec.range]; apply List.filter_congr; intro e _; simp [Bnd.okLo]
      obtain ⟨w3, c1, c2, c3⟩ := ih N d hdok hN sd lb ub hlb hub (hc.mono hdsub)
      have c3' : witems toList w3 = (toList d).filter (fun e => ub.okHi e.1) := by
        rw [c3, Spec.range]; apply List.filter_congr; intro e he; simp [hdlo e he]
      have fca1 : lk = .kid → (toList ca).filter (fun e => lb.okLo e.1) = toList ca := by
        intro hl; rw [List.filter_eq_self]; exact lk1 hl
      have fca2 : lk = .elem → (toList ca).filter (fun e => lb.okLo e.1) = [] := by
        intro hl; rw [List.filter_eq_nil_iff]; intro e he; simp [lk2 hl e he]
      have fd1 : rk = .kid → (toList d).filter (fun e => ub.okHi e.1) = toList d := by
        intro hl; rw [List.filter_eq_self]; exact rk1 hl
      have fd2 : rk = .elem → (toList d).filter (fun e => ub.okHi e.1) = [] := by
        intro hl; rw [List.filter_eq_nil_iff]; intro e he; simp [rk2 hl e he]
      rw [hk, E.lbK, E.ubK]
      simp only [hMne, Bool.false_and, Bool.false_eq_true, if_false]
      -- the node iterator of this node
      have erg : ∀ (l r : Bool) (ks' : List (Node K V)),
          ks' = (if l then [ca] else []) ++ (mid ++ (if r then [d] else [])) →
          NIter.Ok true (KidOk N) ⟨M, ks', l, r⟩ ∧
          NIter.items toList ⟨M, ks', l, r⟩ = (if l then toList ca else []) ++
            (ilvE toList M mid ++ (if r then toList d else [])) := by
        intro l r ks' hks
        subst hks
        have hall : ∀ c ∈ (if l then [ca] else []) ++ (mid ++ (if r then [d] else [])),
            KidOk N c := by
          intro c hc'
          simp only [List.mem_append] at hc'
          rcases hc' with hc' | hc' | hc'
          · cases l <;> simp at hc'; subst hc'; exact ⟨h, hcaok⟩
          · exact hmidok c hc'
          · cases r <;> simp at hc'; subst hc'; exact ⟨h, hdok⟩
        refine ⟨⟨hall, ?_⟩, ?_⟩
        · by_cases h0 : (if l then [ca] else []) ++ (mid ++ (if r then [d] else [])) = []
          · exact Or.inl ⟨h0, by rw [← hM]; simp⟩
          · refine Or.inr ⟨h0, r, ?_, fun _ => rfl⟩
            cases l <;> cases r <;> simp [hml] <;> omega
        · cases l <;> cases r <;>
            simp [NIter.items, ilv_cons, ilvE_snoc d hml]
      have fin : ∀ {w1 w2 : List (NIter (K × V) (Node K V))} {e : NIter (K × V) (Node K V)}
          {l1 l2 l3 l : List (K × V)},
          (∀ e ∈ w1, e.Ok true (KidOk N)) → (∀ e ∈ w2, e.Ok true (KidOk N)) →
          e.Ok true (KidOk N) → witems toList w1 = l1 → e.items toList = l2 →
          witems toList w2 = l3 → l1 ++ (l2 ++ l3) = l → WorkOk N (some (w1 ++ e :: w2)) l := by
        intro w1 w2 e l1 l2 l3 l h1 h2 h3 h4 h5 h6 h7
        refine ⟨_, rfl, ?_, ?_⟩
        · intro x hx
          simp only [List.mem_append, List.mem_cons] at hx
          rcases hx with hx | rfl | hx
          · exact h1 x hx
          · exact h3
          · exact h2 x hx
        · rw [witems_append, witems_cons, h4, h5, h6, h7]
      have nilOk : ∀ e ∈ ([] : List (NIter (K × V) (Node K V))), e.Ok true (KidOk N) := by simp
      have hdl : (ca :: (mid ++ [d])).dropLast = ca :: mid := by
        rw [← List.cons_append, List.dropLast_concat]
      cases lk <;> cases rk
      · simp [hmkca, hmkd, a1, b1]
        exact fin a2 b2 (erg false false mid (by simp)).1 a3' (erg false false mid (by simp)).2
          b3' (by simp)
      · simp [hmkca, hmkd, a1, b1]
        exact fin a2 nilOk (erg false true _ (by simp)).1 a3' (erg false true _ (by simp)).2
          witems_nil (by simp [fd1])
      · simp [hmkca, hmkd, a1, b1]
        exact fin a2 nilOk (erg false false _ (by simp)).1 a3' (erg false false _ (by simp)).2
          witems_nil (by simp [fd2])
      · simp [hmkca, hmkd, c1]
        exact fin nilOk c2 (erg true false _ (by simp [hdl])).1 witems_nil
          (erg true false _ (by simp [hdl])).2 c3' (by simp [fca1])
      · simp
        exact fin nilOk nilOk (erg true true _ (by simp)).1 witems_nil
          (erg true true _ (by simp)).2 witems_nil (by simp [fca1, fd1])
      · simp
        exact fin nilOk nilOk (erg true false _ (by simp)).1 witems_nil
          (erg true false _ (by simp)).2 witems_nil (by simp [fca1, fd2])
      · simp [hmkca, hmkd, c1]
        exact fin nilOk c2 (erg false false _ (by simp)).1 witems_nil
          (erg false false _ (by simp)).2 c3' (by simp [fca2])
      · simp
        exact fin nilOk nilOk (erg false true _ (by simp)).1 witems_nil
          (erg false true _ (by simp)).2 witems_nil (by simp [fca2, fd1])
      · simp
        exact fin nilOk nilOk (erg false false _ (by simp)).1 witems_nil
          (erg false false _ (by simp)).2 witems_nil (by simp [fca2, fd2])

/-- Both bounds exclude a stored key: the slice of the elements is inverted and the call
panics. -/
theorem mkWork_panic {N : Nat} {p : K → Ordering} (hp : IsProbe p) : ∀ (h lo : Nat)
    (n : Node K V), Node.Ok N lo h n → Sorted n.toList → (∃ e ∈ n.toList, p e.1 = .eq) →
    mkWork (.excluded p) (.excluded p) n = none := by
  -- the bounds at one node
  have here : ∀ (es : List (K × V)) (ks : List (Node K V)), Sorted es →
      mkWork (.excluded p) (.excluded p) (.mk es ks) = none ∨
      ∃ A B, es = A ++ B ∧ (∀ e ∈ A, p e.1 = .gt) ∧ (∀ e ∈ B, p e.1 = .lt) ∧
        findRangeEdges (.excluded p) (.excluded p) es =
          ⟨A.length, A.length, true, A.length, A.length + 1, true⟩ := by
    intro es ks hs
    obtain ⟨A, R, e1, hA, e2, h3⟩ := findL_spec hp (.excluded p) false rfl es 0 hs
    simp only [Nat.zero_add] at e2 h3
    rcases h3 with ⟨hR, hl⟩ | ⟨x, R', hR, hx, hl⟩ | ⟨x, R', hR, hx, hl⟩
    · right
      refine ⟨A, R, e1, hA, by simp [hR], ?_⟩
      have : es.length = A.length := by rw [e1, hR]; simp
      simp only [findRangeEdges, e2, hl, hR, findR, this]
    · right
      refine ⟨A, R, e1, hA, ?_, ?_⟩
      · intro e he
        rw [e1, hR] at hs
        rw [hR] at he
        rcases List.mem_cons.1 he with rfl | he
        · exact hx
        · exact hp.lt_of_lt ((sorted_cons.1 (sorted_append.1 hs).2.1).1 e he) hx
      · simp only [findRangeEdges, e2, hl, hR, findR, cmpBd, hx]
    · left
      rw [mkWork]
      simp only [findRangeEdges, e2, hl, hR, findR, cmpBd, hx]
      rw [if_neg]; simp; omega
  intro h
  induction h with
  | zero =>
    rintro lo ⟨es, ks⟩ hn hs ⟨e, he, hpe⟩
    obtain ⟨rfl, -, -⟩ := hn
    simp only [toList_mk, inter_nil] at hs he
    rcases here es [] hs with h | ⟨A, B, h1, h2, h3, -⟩
    · exact h
    · rw [h1] at he
      rcases List.mem_append.1 he with he | he
      · rw [h2 e he] at hpe; simp at hpe
      · rw [h3 e he] at hpe; simp at hpe
  | succ h ih =>
    rintro lo ⟨es, ks⟩ hn hs ⟨e, he, hpe⟩
    obtain ⟨hkl, -, -, hkok⟩ := hn
    simp only [toList_mk] at hs he
    rcases here es ks (hs.sublist (elems_sublist ks es)) with h | ⟨A, B, h1, h2, h3, h4⟩
    · exact h
    · obtain ⟨kA, kR0, hk1, hkA⟩ := split_len ks A.length (by rw [hkl, h1]; simp; omega)
      obtain ⟨c, kB, rfl⟩ : ∃ ca kR, kR0 = ca :: kR := by
        cases kR0 with
        | nil => rw [hk1, h1] at hkl; simp at hkl; omega
        | cons c r => exact ⟨c, r, rfl⟩
      have hkB : kB.length = B.length := by rw [hk1, h1] at hkl; simp at hkl; omega
      have hL : inter ks es = inter kA A ++ (toList c ++ post B kB) := by
        rw [hk1, h1, inter_append hkA, inter_cons]
      rw [hL] at hs he
      obtain ⟨sA, sR, sAR⟩ := sorted_append.1 hs
      obtain ⟨sc, sP, scP⟩ := sorted_append.1 sR
      have hec : e ∈ toList c := by
        rcases List.mem_append.1 he with he | he
        · exfalso
          obtain ⟨a, ha, h5⟩ := inter_bound hkA sA e he
          rcases h5 with rfl | h5
          · rw [h2 _ ha] at hpe; simp at hpe
          · rw [hp.gt_of_gt h5 (h2 a ha)] at hpe; simp at hpe
        · rcases List.mem_append.1 he with he | he
          · exact he
          · exfalso
            obtain ⟨a, ha, h5⟩ := post_bound hkB sP e he
            rcases h5 with rfl | h5
            · rw [h3 _ ha] at hpe; simp at hpe
            · rw [hp.lt_of_lt h5 (h3 a ha)] at hpe; simp at hpe
      have hc := ih N c (hkok c (by rw [hk1]; simp)) sc ⟨e, hec, hpe⟩
      have hk : getSlice ks A.length (A.length + 1) = [c] := by
        rw [hk1]; exact getSlice_mid kA [c] kB (by simp [hkA]) (by simp [hkA])
      have hat : mkWorkAt (.excluded p) (.excluded p) A.length ks = none := by
        rw [hk1, ← hkA, mkWorkAt_append, hc]
      have hel : ((es.take A.length).drop A.length) = [] := by simp
      rw [mkWork]
      simp only [h4, hk, hat, hel]
      split <;> simp

/-! ### The map -/

/-- The nodes below a node of a map. -/
theorem nodeSpecN {N : Nat} (hN : 1 ≤ N) :
    NodeSpec true (Node.elems (K := K) (V := V)) Node.kids Node.depth toList (KidOk N) where
  ne c h := (nodeSpec true).ne c (h.elim fun _ hc => ⟨_, hc.iterOk hN true hN⟩)
  len c h := (nodeSpec true).len c (h.elim fun _ hc => ⟨_, hc.iterOk hN true hN⟩)
  kid c h d hd := by
    refine ⟨?_, Node.depth_kid hd⟩
    obtain ⟨h, hc⟩ := h
    obtain ⟨es, ks⟩ := c
    cases h with
    | zero => rw [hc.1] at hd; simp [kids] at hd
    | succ h => exact ⟨h, hc.2.2.2 d hd⟩
  ht_pos c h := (nodeSpec true).ht_pos c (h.elim fun _ hc => ⟨_, hc.iterOk hN true hN⟩)
  cont_eq c h := (nodeSpec true).cont_eq c (h.elim fun _ hc => ⟨_, hc.iterOk hN true hN⟩)

/-- The iterator after any schedule. -/
theorem NodeSpec.after {E : Type _} {C : Type _} {elemsOf : C → List E} {kidsOf : C → List C}
    {ht : C → Nat} {cont : C → List E} {ok : C → Prop}
    (s : NodeSpec true elemsOf kidsOf ht cont ok) (ds : List Bool)
    {it : InnerIter (NIter E C)} (slack : Nat) (h : ∀ x ∈ it.work, x.Ok true ok)
    (hlen : it.len = (witems cont it.work).length + slack) :
    ∃ it', (borrowedOps elemsOf kidsOf ht).after ds it = some it' ∧
      (∀ x ∈ it'.work, x.Ok true ok) ∧
      witems cont it'.work = Spec.dequeRest ds (witems cont it.work) ∧
      it'.len = (witems cont it'.work).length + slack := by
  induction ds generalizing it with
  | nil => exact ⟨it, rfl, h, rfl, hlen⟩
  | cons d ds ih =>
    obtain ⟨it1, h1, h2, h3, h4⟩ := s.step d h (by omega)
    obtain ⟨it', h5, h6, h7, h8⟩ := ih h2 (by omega)
    exact ⟨it', by simp [NodeIterOps.after, h1, h5], h6, by rw [h7, h3, Spec.dequeRest], h8⟩

theorem inter_length_ge : ∀ (ks : List (Node K V)) (es : List (K × V)),
    es.length ≤ (inter ks es).length := fun ks es => (elems_sublist ks es).length_le

theorem KidOk.length {N : Nat} {c : Node K V} (h : KidOk N c) : N ≤ c.toList.length := by
  obtain ⟨h, hc⟩ := h
  have := hc.lo_le
  obtain ⟨es, ks⟩ := c
  have := inter_length_ge ks es
  simp only [elems, toList_mk] at *
  omega

theorem ilv_length : ∀ (ks : List (Node K V)) (es : List (K × V)),
    (ilv toList ks es).length = es.length + (ks.map (fun c => c.toList.length)).sum
  | [], es => by simp
  | c :: ks, [] => by
    have := ilv_length ks []
    simp [ilv, this]
  | c :: ks, e :: es => by
    have := ilv_length ks es
    simp [ilv, this]; omega

theorem items_length (e : NIter (K × V) (Node K V)) :
    (e.items toList).length = e.elems.length + (e.kids.map (fun c => c.toList.length)).sum := by
  unfold NIter.items
  split
  · exact ilv_length _ _
  · cases he : e.elems with
    | nil =>
      have := ilv_length e.kids []
      simp only [List.length_nil, Nat.zero_add] at this ⊢
      cases hk : e.kids with
      | nil => simp
      | cons c ks => rw [hk] at this; rw [← this]; simp [ilvE, ilv]
    | cons x es => rw [ilvE_cons, List.length_cons, ilv_length, List.length_cons]; omega

theorem sizeHint_le {N : Nat} {it : InnerIter (NIter (K × V) (Node K V))}
    (h : ∀ x ∈ it.work, x.Ok true (KidOk N)) :
    (sizeHint N it).1 ≤ (witems toList it.work).length := by
  obtain ⟨w, len⟩ := it
  simp only [sizeHint]
  induction w with
  | nil => simp
  | cons e w ih =>
    have h1 := ih (fun x hx => h x (by simp [hx]))
    have h2 : N * e.kids.length ≤ (e.kids.map (fun c => c.toList.length)).sum := by
      have := (h e (by simp)).1
      revert this
      generalize e.kids = l
      intro this
      induction l with
      | nil => simp
      | cons c l ih2 =>
        have a := (this c (by simp)).length
        have b := ih2 (fun x hx => this x (by simp [hx]))
        simp only [List.length_cons, List.map_cons, List.sum_cons, Nat.mul_add, Nat.mul_one]
        omega
    rw [witems_cons, List.length_append, items_length]
    simp only [List.map_cons, List.sum_cons]
    omega

namespace BTreeMap
variable {Q : Type _} [Ord Q] [TransOrd Q] {N : Nat} {m : BTreeMap K V}

theorem _root_.Verif.BTree.QBnd.lawful {f : K → Q} (hf : ∀ a b, compare (f a) (f b) = compare a b)
    (b : QBnd Q) : (b.bnd f).Lawful := by
  cases b with
  | unbounded => trivial
  | included q => exact isProbe_borrow f hf q
  | excluded q => exact isProbe_borrow f hf q

/-- The two bounds exclude the same key, which is stored. -/
def BothExclude (f : K → Q) (lb ub : QBnd Q) (l : List (K × V)) : Prop :=
  ∃ q1 q2, lb = .excluded q1 ∧ ub = .excluded q2 ∧ compare q1 q2 = .eq ∧
    ∃ e ∈ l, compare q1 (f e.1) = .eq

/-- `range` panics exactly for inverted bounds and when both bounds exclude one stored key;
otherwise it yields the entries within the bounds. -/
theorem range_spec (hN : 1 ≤ N) (h : WF N m) {f : K → Q}
    (hf : ∀ a b, compare (f a) (f b) = compare a b) (lb ub : QBnd Q) :
    ((lb.bad ub = true ∨ BothExclude f lb ub m.abs) → m.range f lb ub = none) ∧
    (lb.bad ub = false → ¬ BothExclude f lb ub m.abs →
      ∃ it, m.range f lb ub = some it ∧ it.len = m.len ∧
        (∀ e ∈ it.work, e.Ok true (KidOk N)) ∧
        witems toList it.work = Spec.range (lb.bnd f) (ub.bnd f) m.abs) := by
  constructor
  · rintro (hb | ⟨q1, q2, rfl, rfl, hq, e, he, hpe⟩)
    · simp [range, hb]
    · unfold range
      split
      · rfl
      · cases hr : m.root with
        | none => simp [abs, hr] at he
        | some n =>
          obtain ⟨⟨ht, h1⟩, h2⟩ := h.root hr
          have hs := h.sorted
          rw [h2] at he hs
          have hfn : (fun k => compare q2 (f k)) = (fun k => compare q1 (f k)) := by
            funext k; exact (TransCmp.congr_left hq).symm
          have := mkWork_panic (isProbe_borrow f hf q1) ht 1 n h1 hs ⟨e, he, hpe⟩
          simp [QBnd.bnd, hfn, this]
  · intro hb hne
    unfold range
    rw [hb]
    cases hr : m.root with
    | none => exact ⟨⟨[], m.len⟩, rfl, rfl, by simp, by simp [abs, hr, Spec.range]⟩
    | some n =>
      obtain ⟨⟨ht, h1⟩, h2⟩ := h.root hr
      have hs := h.sorted
      rw [h2] at hs hne ⊢
      have hc : Compat (lb.bnd f) (ub.bnd f) n.toList := by
        intro e he p hp hpe
        cases lb with
        | unbounded => simp [QBnd.bnd] at hp
        | included q => simp [QBnd.bnd] at hp
        | excluded q1 =>
          simp only [QBnd.bnd, Bnd.excluded.injEq] at hp
          subst hp
          cases ub with
          | unbounded => rfl
          | included q2 =>
            simp only [QBnd.bnd, Bnd.okHi]
            have hx : compare q2 (f e.1) = compare q2 q1 := (TransCmp.congr_right hpe).symm
            rw [hx]
            simpa [QBnd.bad] using hb
          | excluded q2 =>
            simp only [QBnd.bnd, Bnd.okHi]
            have hx : compare q2 (f e.1) = compare q2 q1 := (TransCmp.congr_right hpe).symm
            rw [hx]
            have h3 : compare q2 q1 ≠ .lt := by simpa [QBnd.bad] using hb
            have h4 : compare q2 q1 ≠ .eq := by
              intro h4
              exact hne ⟨q1, q2, rfl, rfl, OrientedCmp.eq_symm h4, e, he, hpe⟩
            cases h5 : compare q2 q1 <;> simp_all
      obtain ⟨w, w1, w2, w3⟩ := mkWork_spec hN ht 1 n h1 (Nat.le_refl 1) hs _ _ (lb.lawful hf)
        (ub.lawful hf) hc
      exact ⟨⟨w, m.len⟩, by simp [w1], rfl, w2, w3⟩

/-- Any schedule on a range iterator; `len` is the stored length, i.e. too large by the number
of entries outside the bounds. -/
theorem range_run_spec (hN : 1 ≤ N) (h : WF N m) {lo hi : Bnd K}
    {it : InnerIter (NIter (K × V) (Node K V))} (h1 : it.len = m.len)
    (h2 : ∀ e ∈ it.work, e.Ok true (KidOk N))
    (h3 : witems toList it.work = Spec.range lo hi m.abs) (ds : List Bool) :
    ∃ slack, (Spec.range lo hi m.abs).length + slack = m.len ∧
      nodeOps.run ds it = some ((Spec.dequeRun ds (Spec.range lo hi m.abs)).map
        (fun x => (x.1, x.2 + slack))) ∧
      ∃ it', nodeOps.after ds it = some it' ∧
        (sizeHint N it').1 ≤ (Spec.dequeRest ds (Spec.range lo hi m.abs)).length ∧
        (sizeHint N it').2 = (Spec.dequeRest ds (Spec.range lo hi m.abs)).length + slack := by
  have hle : (Spec.range lo hi m.abs).length ≤ m.len := by
    rw [h.len_eq]; exact List.length_filter_le _ _
  have hl : it.len = (witems toList it.work).length +
      (m.len - (Spec.range lo hi m.abs).length) := by rw [h3, h1]; omega
  refine ⟨m.len - (Spec.range lo hi m.abs).length, by omega, ?_, ?_⟩
  · have := (nodeSpecN (K := K) (V := V) hN).run ds _ h2 hl
    rw [h3] at this
    exact this
  · obtain ⟨it', a1, a2, a3, a4⟩ := (nodeSpecN (K := K) (V := V) hN).after ds _ h2 hl
    rw [h3] at a3
    refine ⟨it', a1, ?_, ?_⟩
    · rw [← a3]; exact sizeHint_le a2
    · rw [← a3, ← a4]; rfl

end BTreeMap
end
end Verif.BTree
