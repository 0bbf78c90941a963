import Verif.Wild.FixedSpec
import Verif.Wild.BTreeSpec
import Verif.Wild.AvlSpec
/-!
# Loops of insertions, and the operations of `BTreeMap` made of them, under a lawless comparison
-/
set_option linter.unusedVariables false
namespace Verif.Wild
universe w
variable {σ : Type w} {K V M : Type}

/-- The loop of `extend`: avl.rs:2276-2290, btree.rs:978-987, fixed.rs:157-167.  `ins m k v` is
the map's `insert`; a panic drops what the iterator had still to give. -/
def extendW (ins : M → K → V → σ → Option (Ends M (M × Option V) × σ)) :
    M → List (K × V) → σ → Option (Ends M M × σ)
  | m, [], s => some (.done m, s)
  | m, (k, v) :: es, s =>
    match ins m k v s with
    | none => none
    | some (.unwound m', s) => some (.unwound m', s)
    | some (.done (m', _), s) => extendW ins m' es s

/-- One `Put` after another. -/
def Puts (c : K → Cmp σ K) : List (K × V) → List (K × V) → List (K × V) → Prop
  | L, [], L' => L' = L
  | L, (k, v) :: es, L' => ∃ o M, Put (c k) k v L o M ∧ Puts c M es L'

theorem Puts.mem {c : K → Cmp σ K} : ∀ {es L L' : List (K × V)}, Puts c L es L' →
    ∀ e ∈ L', e ∈ L ∨ e ∈ es
  | [], L, L', h, e, he => by have e : L' = L := h; subst e; exact .inl he
  | (k, v) :: es, L, L', h, e, he => by
    obtain ⟨o, M, h1, h2⟩ := h
    rcases Puts.mem h2 e he with hm | hm
    · cases o with
      | none =>
        obtain ⟨l1, l2, rfl, rfl⟩ := h1
        simp only [List.mem_append, List.mem_cons] at hm ⊢
        grind
      | some x =>
        obtain ⟨l1, kx, l2, rfl, rfl, -⟩ := h1
        simp only [List.mem_append, List.mem_cons] at hm ⊢
        grind
    · simp [hm]

theorem Puts.length {c : K → Cmp σ K} : ∀ {es L L' : List (K × V)}, Puts c L es L' →
    L.length ≤ L'.length ∧ L'.length ≤ L.length + es.length
  | [], L, L', h => by have e : L' = L := h; subst e; simp
  | (k, v) :: es, L, L', h => by
    obtain ⟨o, M, h1, h2⟩ := h
    have := h1.length
    have := Puts.length h2
    simp only [List.length_cons]
    split at * <;> omega

theorem Puts.snoc {c : K → Cmp σ K} : ∀ {es L L' L'' : List (K × V)} {k : K} {v : V} {o : Option V},
    Puts c L es L' → Put (c k) k v L' o L'' → Puts c L (es ++ [(k, v)]) L''
  | [], L, L', L'', k, v, o, h, h' => by
    have e : L' = L := h
    subst e
    exact ⟨o, L'', h', rfl⟩
  | (k1, v1) :: es, L, L', L'', k, v, o, h, h' => by
    obtain ⟨o1, M, h1, h2⟩ := h
    exact ⟨o1, M, h1, Puts.snoc h2 h'⟩

/-- What `extend` may do: add all the entries, or those before the one at which a comparison
panicked. -/
theorem extendW_spec {ins : M → K → V → σ → Option (Ends M (M × Option V) × σ)} {P : M → Prop}
    {abs : M → List (K × V)} {c : K → Cmp σ K}
    (hins : ∀ m, P m → ∀ k v s, ∃ r s', ins m k v s = some (r, s') ∧
      match r with
      | .unwound m' => m' = m ∧ Panics (c k) (abs m)
      | .done (m', o) => P m' ∧ Put (c k) k v (abs m) o (abs m')) :
    ∀ (es : List (K × V)) {m : M}, P m → ∀ s, ∃ r s', extendW ins m es s = some (r, s') ∧
      match r with
      | .unwound m' => P m' ∧ ∃ es1 e es2, es = es1 ++ e :: es2 ∧ Puts c (abs m) es1 (abs m') ∧
          Panics (c e.1) (abs m')
      | .done m' => P m' ∧ Puts c (abs m) es (abs m')
  | [], m, hm, s => ⟨_, _, rfl, hm, rfl⟩
  | (k, v) :: es, m, hm, s => by
    obtain ⟨r, s', e, hr⟩ := hins m hm k v s
    rw [extendW]
    simp only [e]
    rcases r with m' | ⟨m', o⟩
    · obtain ⟨rfl, hp⟩ := hr
      exact ⟨_, _, rfl, hm, [], (k, v), es, rfl, rfl, hp⟩
    · obtain ⟨hp, hput⟩ := hr
      obtain ⟨r, s'', e2, hr2⟩ := extendW_spec hins es hp s'
      refine ⟨r, s'', e2, ?_⟩
      rcases r with m'' | m''
      · obtain ⟨p1, es1, e, es2, rfl, p2, p3⟩ := hr2
        exact ⟨p1, (k, v) :: es1, e, es2, rfl, ⟨o, _, hput, p2⟩, p3⟩
      · exact ⟨hr2.1, o, _, hput, hr2.2⟩

end Verif.Wild

namespace Verif.Fixed.FMap
open Verif.Wild
universe w
variable {σ : Type w} {K V : Type}

/-- fixed.rs:157-179 `extend`, `from_iter`, `from`. -/
def extendW (lin : Bool) (m : FMap K V) (c : K → Cmp σ K) (es : List (K × V)) (s : σ) :
    Option (Ends (FMap K V) (FMap K V) × σ) :=
  Wild.extendW (fun m k v s => m.insertW lin (c k) k v s) m es s

theorem extendW_spec (lin : Bool) {m : FMap K V} (hm : m.Inv) (c : K → Cmp σ K)
    (es : List (K × V)) (s : σ) :
    ∃ r s', m.extendW lin c es s = some (r, s') ∧
      match r with
      | .unwound m' => m'.Inv ∧ ∃ es1 e es2, es = es1 ++ e :: es2 ∧
          Puts c m.toList es1 m'.toList ∧ Panics (c e.1) m'.toList
      | .done m' => m'.Inv ∧ Puts c m.toList es m'.toList := by
  obtain ⟨r, s', e, hr⟩ := Wild.extendW_spec (P := Inv) (abs := toList) (c := c)
    (ins := fun m k v s => m.insertW lin (c k) k v s)
    (fun m hm k v s => by
      obtain ⟨r, s', e, hr⟩ := insertW_spec lin (c k) hm k v s
      exact ⟨r, s', e, by rcases r with _ | ⟨_, _⟩ <;> exact hr⟩) es hm s
  exact ⟨r, s', e, by rcases r with _ | _ <;> exact hr⟩

theorem extendW_tame [Ord K] (lin : Bool) : ∀ (es : List (K × V)) (m : FMap K V) (s : σ),
    m.extendW lin (fun k => tame (compare k)) es s =
      (m.extend lin es).map (fun r => (.done r, s))
  | [], m, s => rfl
  | (k, v) :: es, m, s => by
    rw [extendW, Wild.extendW, extend]
    rw [insertW_tame]
    rcases m.insert lin k v with _ | ⟨m', o⟩
    · rfl
    · exact extendW_tame lin es m' s

end Verif.Fixed.FMap

namespace Verif.Avl.AvlMap
open Verif.Wild
universe w
variable {σ : Type w} {K V : Type}

/-- avl.rs:2276-2308 `extend`, `from_iter`, `from`. -/
def extendW (m : AvlMap K V) (c : K → Cmp σ K) (es : List (K × V)) (s : σ) :
    Option (Ends (AvlMap K V) (AvlMap K V) × σ) :=
  Wild.extendW (fun m k v s => m.insertW (c k) k v s) m es s

theorem extendW_spec {m : AvlMap K V} (hm : m.Inv) (c : K → Cmp σ K) (es : List (K × V)) (s : σ) :
    ∃ r s', m.extendW c es s = some (r, s') ∧
      match r with
      | .unwound m' => m'.Inv ∧ ∃ es1 e es2, es = es1 ++ e :: es2 ∧
          Puts c m.abs es1 m'.abs ∧ Panics (c e.1) m'.abs
      | .done m' => m'.Inv ∧ Puts c m.abs es m'.abs := by
  obtain ⟨r, s', e, hr⟩ := Wild.extendW_spec (P := Inv) (abs := abs) (c := c)
    (ins := fun m k v s => m.insertW (c k) k v s)
    (fun m hm k v s => by
      obtain ⟨r, s', e, hr⟩ := insertW_spec (c k) hm k v s
      exact ⟨r, s', e, by rcases r with _ | ⟨_, _⟩ <;> exact hr⟩) es hm s
  exact ⟨r, s', e, by rcases r with _ | _ <;> exact hr⟩

theorem extendW_tame [Ord K] : ∀ (es : List (K × V)) (m : AvlMap K V) (s : σ),
    m.extendW (fun k => tame (compare k)) es s = (m.extend es).map (fun r => (.done r, s))
  | [], m, s => rfl
  | (k, v) :: es, m, s => by
    rw [extendW, Wild.extendW, extend]
    rw [insertW_tame]
    rcases m.insert k v with _ | ⟨m', o⟩
    · rfl
    · exact extendW_tame es m' s

theorem popWith_inv {m : AvlMap K V} (hm : m.Inv) {r : Option (Tree K V × Option (K × V) × Bool)}
    {t : Tree K V} {kv : Option (K × V)} {sh : Bool} (hr : r = some (t, kv, sh)) (hB : t.Bal)
    (hlen : t.toList.length + kv.toList.length = m.abs.length) :
    ∃ m', popWith m.len r = some (m', kv) ∧ m'.Inv ∧ m'.abs = t.toList := by
  subst hr
  have h := hm.len_eq
  cases kv with
  | none => exact ⟨⟨m.len, t⟩, rfl, ⟨hB, by simp at hlen; rw [h, ← hlen]; rfl⟩, rfl⟩
  | some e =>
    simp at hlen
    have h0 : m.len ≠ 0 := by omega
    refine ⟨⟨m.len - 1, t⟩, by simp [popWith, h0], ⟨hB, ?_⟩, rfl⟩
    show m.len - 1 = t.toList.length
    omega

theorem popFirst_inv {m : AvlMap K V} (hm : m.Inv) :
    ∃ m', m.popFirst = some (m', m.abs.head?) ∧ m'.Inv ∧ m'.abs = m.abs.tail := by
  obtain ⟨t, kv, sh, e, hB, -⟩ := Tree.rmLeftmost_shape m.root hm.bal
  obtain ⟨h1, h2⟩ := Tree.rmLeftmost_toList e
  obtain ⟨m', e', hi, ha⟩ := popWith_inv hm e hB (by
    rw [h1, h2]; simp only [abs]; cases m.root.toList <;> simp)
  exact ⟨m', by rw [popFirst, e', h2]; rfl, hi, by rw [ha, h1]; rfl⟩

theorem popLast_inv {m : AvlMap K V} (hm : m.Inv) :
    ∃ m', m.popLast = some (m', m.abs.getLast?) ∧ m'.Inv ∧ m'.abs = m.abs.dropLast := by
  obtain ⟨t, kv, sh, e, hB, -⟩ := Tree.rmRightmost_shape m.root hm.bal
  obtain ⟨h1, h2⟩ := Tree.rmRightmost_toList e
  obtain ⟨m', e', hi, ha⟩ := popWith_inv hm e hB (by
    rw [h1, h2]; simp only [abs]
    cases h : m.root.toList with
    | nil => simp
    | cons a l => rw [List.getLast?_cons]; simp)
  exact ⟨m', by rw [popLast, e', h2]; rfl, hi, by rw [ha, h1]; rfl⟩

theorem iterList_inv {m : AvlMap K V} (h : m.Inv) : m.iterList = some m.abs := by
  have hi : items m.iter.work = m.abs := items_iterOf _ _
  rw [iterList, drain_spec, hi]
  · rw [hi]; exact Nat.le_of_eq h.len_eq.symm
  · rw [hi, h.len_eq]; omega

end Verif.Avl.AvlMap

namespace Verif.BTree.BTreeMap
open Verif.Wild
universe w
variable {σ : Type w} {K V : Type} (N : Nat)

/-- btree.rs:977-987, 991-1017 `extend`, `from_iter`, `from`. -/
def extendW (m : BTreeMap K V) (c : K → Cmp σ K) (es : List (K × V)) (s : σ) :
    Option (Ends (BTreeMap K V) (BTreeMap K V) × σ) :=
  Wild.extendW (fun m k v s => m.insertW N (c k) k v s) m es s

theorem extendW_spec {m : BTreeMap K V} (hm : m.Inv N) (c : K → Cmp σ K) (es : List (K × V))
    (s : σ) :
    ∃ r s', m.extendW N c es s = some (r, s') ∧
      match r with
      | .unwound m' => m'.Inv N ∧ ∃ es1 e es2, es = es1 ++ e :: es2 ∧
          Puts c m.abs es1 m'.abs ∧ Panics (c e.1) m'.abs
      | .done m' => m'.Inv N ∧ Puts c m.abs es m'.abs := by
  obtain ⟨r, s', e, hr⟩ := Wild.extendW_spec (P := Inv N) (abs := abs) (c := c)
    (ins := fun m k v s => m.insertW N (c k) k v s)
    (fun m hm k v s => by
      obtain ⟨r, s', e, hr⟩ := insertW_spec N (c k) hm k v s
      exact ⟨r, s', e, by rcases r with _ | ⟨_, _⟩ <;> exact hr⟩) es hm s
  exact ⟨r, s', e, by rcases r with _ | _ <;> exact hr⟩

theorem extendW_tame [Ord K] : ∀ (es : List (K × V)) (m : BTreeMap K V) (s : σ),
    m.extendW N (fun k => tame (compare k)) es s =
      (m.extend N es).map (fun r => (.done r, s))
  | [], m, s => rfl
  | (k, v) :: es, m, s => by
    rw [extendW, Wild.extendW, extend]
    rw [insertW_tame]
    rcases m.insert N k v with _ | ⟨m', o⟩
    · rfl
    · exact extendW_tame es m' s

/-- btree.rs:553-559 `append`: the two maps afterwards.  `other` is taken before the first
comparison. -/
def appendW (o : Sharing K V) (m other : BTreeMap K V) (c : K → Cmp σ K) (s : σ) :
    Option (Ends (BTreeMap K V × BTreeMap K V) (BTreeMap K V × BTreeMap K V) × σ) :=
  match other.intoList o with
  | none => none
  | some es =>
    match m.extendW N c es s with
    | none => none
    | some (.unwound m', s) => some (.unwound (m', new), s)
    | some (.done m', s) => some (.done (m', new), s)

/-- btree.rs:911-922: the loop of `retain`.  The closure may panic too. -/
def retainLoopW (c : K → Cmp σ K) (f : K → V → σ → Option (V × Bool) × σ) :
    List (K × V) → BTreeMap K V → σ → Option (Option (BTreeMap K V) × σ)
  | [], m, s => some (some m, s)
  | e :: es, m, s =>
    match f e.1 e.2 s with
    | (none, s) => some (none, s)
    | (some (_, false), s) => retainLoopW c f es m s
    | (some (v, true), s) =>
      match m.insertW N (c e.1) e.1 v s with
      | none => none
      | some (.unwound _, s) => some (none, s)
      | some (.done (m', _), s) => retainLoopW c f es m' s

/-- btree.rs:902-923 `retain`; the map is taken before the first call. -/
def retainW (o : Sharing K V) (m : BTreeMap K V) (c : K → Cmp σ K)
    (f : K → V → σ → Option (V × Bool) × σ) (s : σ) :
    Option (Ends (BTreeMap K V) (BTreeMap K V) × σ) :=
  match m.intoList o with
  | none => none
  | some es =>
    match retainLoopW N c f es new s with
    | none => none
    | some (none, s) => some (.unwound new, s)
    | some (some m', s) => some (.done m', s)

/-- btree.rs:932-934: `partition(|(k, _)| key > k.borrow())` into two maps; `g k` is
`key > k`, which need not agree with `cmp`. -/
def splitLoopW (c : K → Cmp σ K) (g : K → σ → Option Bool × σ) :
    List (K × V) → BTreeMap K V → BTreeMap K V → σ →
      Option (Option (BTreeMap K V × BTreeMap K V) × σ)
  | [], a, b, s => some (some (a, b), s)
  | e :: es, a, b, s =>
    match g e.1 s with
    | (none, s) => some (none, s)
    | (some true, s) =>
      match a.insertW N (c e.1) e.1 e.2 s with
      | none => none
      | some (.unwound _, s) => some (none, s)
      | some (.done (a', _), s) => splitLoopW c g es a' b s
    | (some false, s) =>
      match b.insertW N (c e.1) e.1 e.2 s with
      | none => none
      | some (.unwound _, s) => some (none, s)
      | some (.done (b', _), s) => splitLoopW c g es a b' s

/-- btree.rs:925-938 `split_off`: what stays and what is returned. -/
def splitOffW (o : Sharing K V) (m : BTreeMap K V) (c : K → Cmp σ K) (g : K → σ → Option Bool × σ)
    (s : σ) : Option (Ends (BTreeMap K V) (BTreeMap K V × BTreeMap K V) × σ) :=
  match m.intoList o with
  | none => none
  | some es =>
    match splitLoopW N c g es new new s with
    | none => none
    | some (none, s) => some (.unwound new, s)
    | some (some r, s) => some (.done r, s)

variable {N}

theorem appendW_spec (hN : 1 ≤ N) (o : Sharing K V) {m other : BTreeMap K V} (hm : m.Inv N)
    (ho : other.Inv N) (c : K → Cmp σ K) (s : σ) :
    ∃ r s', m.appendW N o other c s = some (r, s') ∧
      match r with
      | .unwound (m', other') => m'.Inv N ∧ other' = new ∧ ∃ es1 e es2,
          other.abs = es1 ++ e :: es2 ∧ Puts c m.abs es1 m'.abs ∧ Panics (c e.1) m'.abs
      | .done (m', other') => m'.Inv N ∧ other' = new ∧ Puts c m.abs other.abs m'.abs := by
  obtain ⟨r, s', e, hr⟩ := extendW_spec N hm c other.abs s
  simp only [appendW, intoList_inv hN ho, e]
  rcases r with m' | m'
  · exact ⟨_, _, rfl, hr.1, rfl, hr.2⟩
  · exact ⟨_, _, rfl, hr.1, rfl, hr.2⟩

theorem retainLoopW_spec (c : K → Cmp σ K) (f : K → V → σ → Option (V × Bool) × σ) :
    ∀ (es : List (K × V)) {m : BTreeMap K V} {L0 es0 : List (K × V)}, m.Inv N →
      Puts c L0 es0 m.abs → ∀ s : σ,
      ∃ r s', retainLoopW N c f es m s = some (r, s') ∧
        match r with
        | none => True
        | some m' => m'.Inv N ∧ ∃ kept : List (K × V), (kept.map (·.1)).Sublist (es.map (·.1)) ∧
            Puts c L0 (es0 ++ kept) m'.abs
  | [], m, L0, es0, hm, hp, s => ⟨_, _, rfl, hm, [], by simp, by simpa using hp⟩
  | e :: es, m, L0, es0, hm, hp, s => by
    rw [retainLoopW]
    rcases f e.1 e.2 s with ⟨_ | ⟨v, _ | _⟩, s1⟩
    · exact ⟨_, _, rfl, trivial⟩
    · obtain ⟨r, s', e', hr⟩ := retainLoopW_spec c f es hm hp s1
      refine ⟨r, s', e', ?_⟩
      rcases r with _ | m'
      · trivial
      · obtain ⟨h1, kept, h2, h3⟩ := hr
        exact ⟨h1, kept, by simpa using h2.cons e.1, h3⟩
    · obtain ⟨x, s2, e2, hx⟩ := insertW_spec N (c e.1) hm e.1 v s1
      simp only [e2]
      rcases x with _ | ⟨m1, o1⟩
      · exact ⟨_, _, rfl, trivial⟩
      · obtain ⟨r, s', e', hr⟩ := retainLoopW_spec c f es hx.1 (hp.snoc hx.2) s2
        refine ⟨r, s', e', ?_⟩
        rcases r with _ | m'
        · trivial
        · obtain ⟨h1, kept, h2, h3⟩ := hr
          exact ⟨h1, (e.1, v) :: kept, by simpa using h2.cons_cons e.1, by simpa using h3⟩

theorem retainW_spec (hN : 1 ≤ N) (o : Sharing K V) {m : BTreeMap K V} (hm : m.Inv N)
    (c : K → Cmp σ K) (f : K → V → σ → Option (V × Bool) × σ) (s : σ) :
    ∃ r s', m.retainW N o c f s = some (r, s') ∧
      match r with
      | .unwound m' => m' = new
      | .done m' => m'.Inv N ∧ ∃ kept : List (K × V),
          (kept.map (·.1)).Sublist (m.abs.map (·.1)) ∧ Puts c [] kept m'.abs := by
  obtain ⟨r, s', e, hr⟩ := retainLoopW_spec (N := N) c f m.abs (m := new) (L0 := []) (es0 := [])
    (inv_new N) rfl s
  simp only [retainW, intoList_inv hN hm, e]
  rcases r with _ | m'
  · exact ⟨_, _, rfl, rfl⟩
  · exact ⟨_, _, rfl, by simpa using hr⟩

theorem splitLoopW_spec (c : K → Cmp σ K) (g : K → σ → Option Bool × σ) :
    ∀ (es : List (K × V)) {a b : BTreeMap K V} {ea eb : List (K × V)}, a.Inv N → b.Inv N →
      Puts c [] ea a.abs → Puts c [] eb b.abs → ∀ s : σ,
      ∃ r s', splitLoopW N c g es a b s = some (r, s') ∧
        match r with
        | none => True
        | some (a', b') => a'.Inv N ∧ b'.Inv N ∧ ∃ es1 es2, (es1 ++ es2).Perm es ∧
            es1.Sublist es ∧ es2.Sublist es ∧
            Puts c [] (ea ++ es1) a'.abs ∧ Puts c [] (eb ++ es2) b'.abs
  | [], a, b, ea, eb, ha, hb, pa, pb, s =>
    ⟨_, _, rfl, ha, hb, [], [], by simp, by simp, by simp, by simpa using pa, by simpa using pb⟩
  | e :: es, a, b, ea, eb, ha, hb, pa, pb, s => by
    rw [splitLoopW]
    rcases g e.1 s with ⟨_ | _ | _, s1⟩
    · exact ⟨_, _, rfl, trivial⟩
    · obtain ⟨x, s2, e2, hx⟩ := insertW_spec N (c e.1) hb e.1 e.2 s1
      simp only [e2]
      rcases x with _ | ⟨m1, o1⟩
      · exact ⟨_, _, rfl, trivial⟩
      · obtain ⟨r, s', e', hr⟩ := splitLoopW_spec c g es ha hx.1 pa (pb.snoc hx.2) s2
        refine ⟨r, s', e', ?_⟩
        rcases r with _ | ⟨a', b'⟩
        · trivial
        · obtain ⟨h1, h2, es1, es2, h3, h4, h5, h6, h7⟩ := hr
          exact ⟨h1, h2, es1, e :: es2, List.perm_middle.trans (h3.cons e), h4.cons _,
            h5.cons_cons _, h6, by simpa using h7⟩
    · obtain ⟨x, s2, e2, hx⟩ := insertW_spec N (c e.1) ha e.1 e.2 s1
      simp only [e2]
      rcases x with _ | ⟨m1, o1⟩
      · exact ⟨_, _, rfl, trivial⟩
      · obtain ⟨r, s', e', hr⟩ := splitLoopW_spec c g es hx.1 hb (pa.snoc hx.2) pb s2
        refine ⟨r, s', e', ?_⟩
        rcases r with _ | ⟨a', b'⟩
        · trivial
        · obtain ⟨h1, h2, es1, es2, h3, h4, h5, h6, h7⟩ := hr
          exact ⟨h1, h2, e :: es1, es2, h3.cons e, h4.cons_cons _, h5.cons _,
            by simpa using h6, h7⟩

theorem splitOffW_spec (hN : 1 ≤ N) (o : Sharing K V) {m : BTreeMap K V} (hm : m.Inv N)
    (c : K → Cmp σ K) (g : K → σ → Option Bool × σ) (s : σ) :
    ∃ r s', m.splitOffW N o c g s = some (r, s') ∧
      match r with
      | .unwound m' => m' = new
      | .done (a, b) => a.Inv N ∧ b.Inv N ∧ ∃ es1 es2, (es1 ++ es2).Perm m.abs ∧
          es1.Sublist m.abs ∧ es2.Sublist m.abs ∧ Puts c [] es1 a.abs ∧ Puts c [] es2 b.abs := by
  obtain ⟨r, s', e, hr⟩ := splitLoopW_spec (N := N) c g m.abs (a := new) (b := new) (ea := [])
    (eb := []) (inv_new N) (inv_new N) rfl rfl s
  simp only [splitOffW, intoList_inv hN hm, e]
  rcases r with _ | ⟨a, b⟩
  · exact ⟨_, _, rfl, rfl⟩
  · exact ⟨_, _, rfl, by simpa using hr⟩

/-! With functions of the key, these are the functions of the other model. -/

theorem appendW_tame [Ord K] (o : Sharing K V) (m other : BTreeMap K V) (s : σ) :
    m.appendW N o other (fun k => tame (compare k)) s =
      (m.append N o other).map (fun r => (.done r, s)) := by
  rw [appendW, append]
  rcases other.intoList o with _ | es
  · rfl
  · simp only [extendW_tame]
    rcases m.extend N es with _ | m' <;> rfl

theorem splitOffW_tame [Ord K] (o : Sharing K V) (m : BTreeMap K V) (p : K → Ordering) (s : σ) :
    m.splitOffW N o (fun k => tame (compare k)) (fun k s => (some (decide (p k = .gt)), s)) s =
      (m.splitOff N o p).map (fun r => (.done r, s)) := by
  have hloop : ∀ (es : List (K × V)) (a b : BTreeMap K V),
      splitLoopW N (fun k => tame (compare k)) (fun k s => (some (decide (p k = .gt)), s)) es a b s =
        (splitLoop N p es a b).map (fun r => (some r, s)) := by
    intro es
    induction es with
    | nil => intro a b; rfl
    | cons e es ih =>
      intro a b
      rw [splitLoopW, splitLoop]
      by_cases h : p e.1 = .gt
      · simp only [h, decide_true, if_true, insertW_tame]
        rcases a.insert N e.1 e.2 with _ | ⟨a', o⟩
        · rfl
        · exact ih a' b
      · simp only [h, decide_false, if_false, insertW_tame]
        rcases b.insert N e.1 e.2 with _ | ⟨a', o⟩
        · rfl
        · exact ih a a'
  rw [splitOffW, splitOff]
  rcases m.intoList o with _ | es
  · rfl
  · simp only [hloop]
    rcases splitLoop N p es new new with _ | r <;> rfl

theorem popFirst_inv (hN : 1 ≤ N) {m : BTreeMap K V} (h : m.Inv N) :
    ∃ m', m.popFirst N = some (m', m.abs.head?) ∧ m'.Inv N ∧ m'.abs = m.abs.tail := by
  obtain ⟨len, _ | n⟩ := m
  · exact ⟨_, rfl, h, rfl⟩
  · obtain ⟨ht, h1⟩ := h.shape n rfl
    have h2 : (⟨len, some n⟩ : BTreeMap K V).abs = n.toList := rfl
    obtain ⟨kv, b, n', e, hs, htl⟩ := Node.popFirst_spec hN h1 (Nat.le_refl 1) hN
    obtain ⟨m', e', w, a⟩ := rmAndRebal_inv hN h rfl (remover := fun n => (n.popFirst N).map some)
      (congrArg (Option.map some) e) hs (by rw [h2, htl]; simp)
    refine ⟨m', ?_, w, ?_⟩
    · rw [popFirst, e', h2, htl]; rfl
    · rw [a, h2, htl]; rfl

theorem popLast_inv (hN : 1 ≤ N) {m : BTreeMap K V} (h : m.Inv N) :
    ∃ m', m.popLast N = some (m', m.abs.getLast?) ∧ m'.Inv N ∧ m'.abs = m.abs.dropLast := by
  obtain ⟨len, _ | n⟩ := m
  · exact ⟨_, rfl, h, rfl⟩
  · obtain ⟨ht, h1⟩ := h.shape n rfl
    have h2 : (⟨len, some n⟩ : BTreeMap K V).abs = n.toList := rfl
    obtain ⟨kv, b, n', e, hs, htl⟩ := Node.popLast_spec hN h1 (Nat.le_refl 1) hN
    obtain ⟨m', e', w, a⟩ := rmAndRebal_inv hN h rfl (remover := fun n => (n.popLast N).map some)
      (congrArg (Option.map some) e) hs (by rw [h2, htl]; simp)
    refine ⟨m', ?_, w, ?_⟩
    · rw [popLast, e', h2, htl]; simp
    · rw [a, h2, htl]; simp

end Verif.BTree.BTreeMap
