import Verif.FixedHeap.IterGen
/-!
# Shared and owning iterators of `core.rs` on memory, against the one on values
-/
namespace Verif.FixedH
open Heap BTreeH Fixed
open Fixed (Inner)
open BTree (Node)

variable {E C K V : Type}

/-- The cost bound for an iterator from a root. -/
theorem start_cost {c : Node K V} {i : NI K V} (h : niOps.make c = some i) :
    i = ⟨c.elems, c.kids, c.kids.isEmpty⟩ ∧ c.elems.isEmpty = false ∧
      costs niOps [i] + 1 = nodeCost c := by
  simp only [niOps] at h
  split at h
  · simp at h
  · rename_i h0
    simp only [Option.some.injEq] at h
    subst h
    refine ⟨rfl, by simpa using h0, ?_⟩
    rw [nodeCost_eq]
    simp [costs, niOps]

/-! ## Relating lists of what is left -/

/-- A node iterator refers to what one on values has still to yield. -/
structure NR (re : E → K × V → Prop) (rk : C → Node K V → Prop) (e : HNI E C) (et : NI K V) :
    Prop where
  es : List.Forall₂ re e.es et.es
  ks : List.Forall₂ rk e.ks et.ks
  isNext : e.isNext = et.isNext

section
variable {re : E → K × V → Prop} {rk : C → Node K V → Prop} {e : HNI E C} {et et' : NI K V}

theorem NR.ret {x : K × V} (h : NR re rk e et) (hn : niOps.next et = some (et', some (.ret x))) :
    ∃ e' i, e.next = (e', some (.ret i)) ∧ re i x ∧ NR re rk e' et' ∧ e'.ks = e.ks ∧
      e.es = i :: e'.es := by
  obtain ⟨es, ks, b⟩ := e
  obtain ⟨et, kt, bt⟩ := et
  obtain ⟨h1, h2, h3⟩ := h
  dsimp only at h1 h2 h3
  subst h3
  cases b with
  | false => cases kt <;> simp [niOps] at hn
  | true =>
    cases et with
    | nil => simp [niOps] at hn
    | cons y et =>
      cases h1 with
      | @cons i _ es _ hi h1 =>
        simp only [niOps, if_true, Option.some.injEq, Prod.mk.injEq, Act.ret.injEq] at hn
        obtain ⟨rfl, rfl⟩ := hn
        exact ⟨⟨es, ks, ks.isEmpty⟩, i, rfl, hi, ⟨h1, h2, by rw [f2_isEmpty h2]⟩, rfl, rfl⟩

theorem NR.desc {c : Node K V} (h : NR re rk e et)
    (hn : niOps.next et = some (et', some (.desc c))) :
    ∃ e' q, e.next = (e', some (.desc q)) ∧ rk q c ∧ NR re rk e' et' ∧ e'.es = e.es ∧
      e.ks = q :: e'.ks := by
  obtain ⟨es, ks, b⟩ := e
  obtain ⟨et, kt, bt⟩ := et
  obtain ⟨h1, h2, h3⟩ := h
  dsimp only at h1 h2 h3
  subst h3
  cases b with
  | true => cases et <;> simp [niOps] at hn
  | false =>
    cases kt with
    | nil => simp [niOps] at hn
    | cons y kt =>
      cases h2 with
      | @cons q _ ks _ hq h2 =>
        simp only [niOps, Bool.false_eq_true, if_false, Option.some.injEq, Prod.mk.injEq,
          Act.desc.injEq] at hn
        obtain ⟨rfl, rfl⟩ := hn
        exact ⟨⟨es, ks, true⟩, q, rfl, hq, ⟨h1, h2, rfl⟩, rfl, rfl⟩

theorem NR.stop (h : NR re rk e et) (hn : niOps.next et = some (et', none)) :
    ∃ e', e.next = (e', none) := by
  obtain ⟨es, ks, b⟩ := e
  obtain ⟨et, kt, bt⟩ := et
  obtain ⟨h1, h2, h3⟩ := h
  dsimp only at h1 h2 h3
  subst h3
  cases b with
  | true =>
    cases et with
    | nil => cases h1; exact ⟨_, rfl⟩
    | cons y et => simp [niOps] at hn
  | false =>
    cases kt with
    | nil => cases h2; exact ⟨_, rfl⟩
    | cons y et => simp [niOps] at hn

end

/-! ## Shared iterators -/

section
variable {a : Nat} {t : VT (ND K V)} {u : Bool}

/-- The relation for shared iterators. -/
def SR (a : Nat) (t : VT (ND K V)) (u : Bool) :
    Rel (ND K V) Unit (HNI (K × V) (List Nat)) (NI K V) (K × V) :=
  fun _ _ w wt L => List.Forall₂ (NR Eq (fun p c => t.sub p = some (vt c))) w wt ∧
    L = {⟨some a, t, u⟩}

theorem sharedMake_spec {p : List Nat} {nd : Node K V} {j : NI K V}
    (hp : t.sub p = some (vt nd)) (hj : niOps.make nd = some j) :
    wp ((sharedOps a).make () p) {⟨some a, t, u⟩} (fun x L =>
      NR Eq (fun p c => t.sub p = some (vt c)) x.2 j ∧ L = {⟨some a, t, u⟩}) := by
  obtain ⟨rfl, h0, -⟩ := start_cost hj
  show wp ((lift (.read a p)).bind _) _ _
  wcall readN_spec hp
  rintro ⟨es, ks⟩ _ ⟨⟨h1, h2⟩, rfl⟩
  dsimp only at h1 h2
  subst h1
  rw [add_zero]
  dsimp only
  rw [if_neg (by rw [h0]; simp)]
  refine wp_pure ⟨⟨?_, ?_, ?_⟩, rfl⟩
  · exact List.forall₂_eq_eq_eq ▸ rfl
  · dsimp only
    rw [← h2, List.forall₂_iff_get]
    refine ⟨by simp [kidPaths], ?_⟩
    intro i h1 h2
    simp only [List.get_eq_getElem, kidPaths, List.getElem_map, List.getElem_range]
    exact sub_kid hp (List.getElem?_eq_getElem h2)
  · dsimp only
    rw [Bool.eq_iff_iff, List.isEmpty_iff_length_eq_zero, List.isEmpty_iff_length_eq_zero, h2]

theorem sharedOk : GOk (sharedOps a) niOps (SR a t u) (fun _ => Eq) where
  len h := h.1.length_eq
  rev h := ⟨List.rel_reverse h.1, h.2⟩
  ret := by
    rintro h s e w et et' x wt L ⟨hw, rfl⟩ hn
    cases hw with
    | cons hr hw =>
    obtain ⟨e', i, h1, rfl, h2, -⟩ := hr.ret hn
    show wp (Prog.pure e.next) _ _
    rw [h1]
    exact wp_pure ⟨i, rfl, rfl, .cons h2 hw, rfl⟩
  desc := by
    rintro h s e w et et' c j wt L ⟨hw, rfl⟩ hn hj
    cases hw with
    | cons hr hw =>
    obtain ⟨e', q, h1, h2, h3, -⟩ := hr.desc hn
    show wp (Prog.pure e.next) _ _
    rw [h1]
    refine wp_pure ⟨q, rfl, wp_conseq (sharedMake_spec h2 hj) ?_⟩
    rintro x _ ⟨h4, rfl⟩
    exact ⟨.cons h4 (.cons h3 hw), rfl⟩
  stop := by
    rintro h s e w et et' wt L ⟨hw, rfl⟩ hn
    cases hw with
    | cons hr hw =>
    obtain ⟨e', h1⟩ := hr.stop hn
    show wp (Prog.pure e.next) _ _
    rw [h1]
    exact wp_pure ⟨rfl, wp_pure ⟨hw, rfl⟩⟩

theorem yldS_ok : YldOk (X := K × V) yldN (fun e => e) (SR a t u) (fun _ => Eq)
    (fun _ => True) := by
  rintro h s w wt L i x hR rfl -
  exact ⟨s, rfl, hR⟩

end

/-- What starting an iterator on values gives. -/
theorem start_some {root : Option (Node K V)} {len : Nat} {it : Inner (NI K V)}
    (h : niOps.start root len = some it) :
    (root = none ∧ it = ⟨[], len⟩) ∨ ∃ nd i, root = some nd ∧ niOps.make nd = some i ∧
      it = ⟨[i], len⟩ := by
  cases root with
  | none => left; simpa [NOps.start, eq_comm] using h
  | some nd =>
    right
    simp only [NOps.start, Option.map_eq_some_iff] at h
    obtain ⟨i, h1, rfl⟩ := h
    exact ⟨nd, i, rfl, h1, rfl⟩

/-- A map's iterator on values, run. -/
theorem run_some {root : Option (Node K V)} {len : Nat} {ds : List Bool}
    {ys : List (Option (K × V) × Nat)} (h : (FMap.mk root len).iterRun ds = some ys) :
    (root = none ∧ ys = ds.map (fun _ => (none, len))) ∨
    ∃ nd i it, root = some nd ∧ niOps.make nd = some i ∧
      niOps.run ds ⟨[i], len⟩ = some (ys, it) := by
  simp only [FMap.iterRun, FMap.iter] at h
  split at h
  · simp at h
  · rename_i it hs
    rw [Option.map_eq_some_iff] at h
    obtain ⟨⟨zs, it'⟩, h1, rfl⟩ := h
    rcases start_some hs with ⟨rfl, rfl⟩ | ⟨nd, i, rfl, h2, rfl⟩
    · left
      rw [vrun_nil] at h1
      cases h1
      exact ⟨rfl, rfl⟩
    · right
      exact ⟨nd, i, it', rfl, h2, h1⟩

theorem iterRun_spec {root : Option (Node K V)} {r : Option Nat} {len n : Nat} {ds : List Bool}
    {ys : List (Option (K × V) × Nat)} (hn : ∀ nd, root = some nd → nodeCost nd ≤ n + 1)
    (h : (FMap.mk root len).iterRun ds = some ys) :
    wp (iterRun (n + 1) ds r len) (own r (vtO root)) (fun x L => x = ys ∧ L = own r (vtO root)) := by
  rcases run_some h with ⟨rfl, rfl⟩ | ⟨nd, i, it, rfl, hi, hr⟩
  · refine wp_root (r := r) (root := none) 0 (add_zero _).symm ?_ (by rintro a nd rfl h; cases h)
    rintro rfl -
    simp only [iterRun, run_nil]
    exact wp_pure ⟨rfl, rfl⟩
  · refine wp_root (r := r) (root := some nd) 0 (add_zero _).symm (by intro _ h; cases h) ?_
    rintro a nd rfl h
    cases h
    rw [add_zero]
    simp only [iterRun]
    show wp _ {⟨some a, vt nd, false⟩} _
    refine wp_bind (wp_conseq (sharedMake_spec rfl hi) ?_)
    rintro ⟨_, e⟩ _ ⟨h1, rfl⟩
    dsimp only
    have hc := (start_cost hi).2.2
    refine wp_bind (wp_conseq (run_ok ni_tame sharedOk yldS_ok (fun _ _ _ => trivial) (h := [])
      (jt := ⟨[i], len⟩) (by rw [hc]; exact hn _ rfl) rfl ⟨.cons h1 .nil, rfl⟩ hr trivial) ?_)
    rintro x _ ⟨h2, -, rfl⟩
    exact wp_pure ⟨by rw [h2, map_id'], rfl⟩

/-! ## Owning iterators -/

/-- Whose turn it is: `next_elem_x`, `next_kid_x`, `end_kids` against `is_next_elem`. -/
def Turn (ex kx ek : Nat) (b : Bool) : Prop :=
  (b = false ∧ kx = ex ∧ kx < ek) ∨ (b = true ∧ (ek ≤ kx ∨ kx = ex + 1))

/-- A node iterator on memory, one on values, and what the former holds. -/
def IRel (D : Nat) : OI K V → NI K V → Multiset (Handle (ND K V)) → Prop
  | .owned es ks ex ee kx ek, et, L => ∃ kt b, et = ⟨es, kt, b⟩ ∧ Turn ex kx ek b ∧
      es.length = ee - ex ∧ ks.length = ek - kx ∧ kt.length = ks.length ∧
      (∀ c ∈ kt, (vt c).Dep D) ∧ L = owns ks (vts kt)
  | .leased a ex ee kx ek, et, L => ∃ nd b, et = ⟨nd.elems.drop ex, nd.kids.drop kx, b⟩ ∧
      Turn ex kx ek b ∧ ee = nd.elems.length ∧ ek = nd.kids.length ∧ (vt nd).Dep D ∧
      L = own (some a) (vt nd)

/-- The deque. -/
inductive IW (D : Nat) : List (OI K V) → List (NI K V) → Multiset (Handle (ND K V)) → Prop
  | nil : IW D [] [] 0
  | cons {e et w wt L1 L2} : IRel D e et L1 → IW D w wt L2 → IW D (e :: w) (et :: wt) (L1 + L2)

section
variable {D : Nat}

theorem IW.append {w w2 : List (OI K V)} {wt wt2 : List (NI K V)}
    {L1 L2 : Multiset (Handle (ND K V))} (h1 : IW D w wt L1) (h2 : IW D w2 wt2 L2) :
    IW D (w ++ w2) (wt ++ wt2) (L1 + L2) := by
  induction h1 with
  | nil => rw [zero_add]; exact h2
  | cons h _ ih => rw [add_assoc]; exact .cons h ih

theorem IW.reverse {w : List (OI K V)} {wt : List (NI K V)} {L : Multiset (Handle (ND K V))}
    (h : IW D w wt L) : IW D w.reverse wt.reverse L := by
  induction h with
  | nil => exact .nil
  | cons h _ ih =>
    rw [List.reverse_cons, List.reverse_cons, add_comm]
    exact ih.append (by simpa using IW.cons h IW.nil)

theorem IW.len {w : List (OI K V)} {wt : List (NI K V)} {L : Multiset (Handle (ND K V))}
    (h : IW D w wt L) : w.length = wt.length := by
  induction h with
  | nil => rfl
  | cons _ _ ih => simp [ih]

theorem own_done_spec {e : OI K V} {et : NI K V} {L : Multiset (Handle (ND K V))}
    (h : IRel D e et L) : wp ((ownOps D).done e) L (fun _ L' => L' = 0) := by
  cases e with
  | leased a ex ee kx ek =>
    obtain ⟨nd, b, -, -, -, -, hd, rfl⟩ := h
    exact wp_drop hd
  | owned es ks ex ee kx ek =>
    obtain ⟨kt, b, -, -, -, -, hl, hd, rfl⟩ := h
    refine wp_forAll_drop wp_drop (by simpa using hl) ?_
    intro t ht
    rw [vts_map] at ht
    obtain ⟨c, hc, rfl⟩ := List.mem_map.1 ht
    exact hd c hc

theorem turn_new (n : Nat) : Turn 0 0 n (n == 0) := by
  cases n with
  | zero => right; exact ⟨rfl, Or.inl (Nat.le_refl 0)⟩
  | succ n => left; exact ⟨rfl, rfl, by omega⟩

theorem isEmpty_len {α : Type} (l : List α) : l.isEmpty = (l.length == 0) := by
  cases l <;> rfl

theorem own_make_spec {k : OKid K V} {c : Node K V} {j : NI K V}
    {L : Multiset (Handle (ND K V))} (h : OKidR k c L) (hd : (vt c).Dep D)
    (hj : niOps.make c = some j) :
    wp ((ownOps D).make () k) L (fun x L' => IRel D x.2 j L') := by
  obtain ⟨rfl, -, -⟩ := start_cost hj
  cases k with
  | ok n =>
    obtain ⟨hn, rfl⟩ := h
    refine wp_pure ⟨c.kids, c.kids.isEmpty, ?_, ?_, by simp, by simp, hn.len, ?_, rfl⟩
    · rw [hn.data]
    · rw [isEmpty_len, hn.len]; exact turn_new _
    · intro d hd'
      obtain ⟨D, rfl⟩ := dep_pos hd
      exact (dep_kids hd d hd').mono (by omega)
  | err a =>
    cases h
    show wp ((lift (.read a [])).bind _) _ _
    wcall readN_spec (u := false) (path := []) (nd := c) rfl
    rintro n _ ⟨hn, rfl⟩
    rw [add_zero]
    refine wp_pure ⟨c, c.kids.isEmpty, by simp, ?_, by rw [hn.data], by rw [hn.len], hd, rfl⟩
    rw [isEmpty_len, hn.len]; exact turn_new _

/-- The relation for owning iterators. -/
def IR (D : Nat) : Rel (ND K V) Unit (OI K V) (NI K V) (K × V) :=
  fun _ _ w wt L => IW D w wt L

/-- The element step. -/
theorem own_ret {e : OI K V} {et et' : NI K V} {x : K × V} {L : Multiset (Handle (ND K V))}
    (h : IRel D e et L) (hn : niOps.next et = some (et', some (.ret x))) :
    wp ((ownOps D).next e) L (fun y L' => y.2 = some (.ret x) ∧ IRel D y.1 et' L') := by
  have inv : ∀ {es kt b}, et = ⟨es, kt, b⟩ → b = true ∧ ∃ es', es = x :: es' ∧
      et' = ⟨es', kt, kt.isEmpty⟩ := by
    rintro es kt b rfl
    cases b with
    | false => cases kt <;> simp [niOps] at hn
    | true =>
      cases es with
      | nil => simp [niOps] at hn
      | cons y es =>
        simp only [niOps, if_true, Option.some.injEq, Prod.mk.injEq, Act.ret.injEq] at hn
        obtain ⟨rfl, rfl⟩ := hn
        exact ⟨rfl, es, rfl, rfl⟩
  have turn : ∀ {ex kx ek : Nat}, Turn ex kx ek true → Turn (ex + 1) kx ek (ek - kx == 0) := by
    rintro ex kx ek (⟨h, -⟩ | ⟨-, h⟩)
    · cases h
    · by_cases h1 : ek ≤ kx
      · right; exact ⟨by simp; omega, Or.inl h1⟩
      · left; exact ⟨by simp; omega, by omega, by omega⟩
  cases e with
  | owned es ks ex ee kx ek =>
    obtain ⟨kt, b, he, ht, h1, h2, h3, hd, rfl⟩ := h
    obtain ⟨rfl, es', rfl, rfl⟩ := inv he
    have hk : ¬ (kx < ek ∧ kx ≤ ex) := by
      rcases ht with ⟨h, -⟩ | ⟨-, h⟩
      · cases h
      · omega
    simp only [List.length_cons] at h1
    simp only [ownOps]
    rw [if_neg hk, if_pos (by omega)]
    refine wp_pure ⟨rfl, kt, _, rfl, ?_, by omega, h2, h3, hd, rfl⟩
    rw [isEmpty_len, h3, h2]
    exact turn ht
  | leased a ex ee kx ek =>
    obtain ⟨nd, b, he, ht, rfl, rfl, hd, rfl⟩ := h
    obtain ⟨rfl, es', h1, rfl⟩ := inv he
    have hx : nd.elems[ex]? = some x := by
      have := congrArg List.head? h1
      simpa using this
    have hlt := (List.getElem?_eq_some_iff.1 hx).1
    have hk : ¬ (kx < nd.kids.length ∧ kx ≤ ex) := by
      rcases ht with ⟨h, -⟩ | ⟨-, h⟩
      · cases h
      · omega
    simp only [ownOps]
    rw [if_neg hk, if_pos hlt]
    wcall readN_spec (u := false) (path := []) (nd := nd) rfl
    rintro n _ ⟨hn, rfl⟩
    rw [add_zero, hn.data, hx]
    dsimp only
    refine wp_pure ⟨rfl, nd, (nd.kids.drop kx).isEmpty, ?_, ?_, rfl, rfl, hd, rfl⟩
    · have := congrArg List.tail h1
      simp only [List.tail_drop, List.tail_cons] at this
      rw [this]
    · rw [isEmpty_len, List.length_drop]
      exact turn ht

/-- The child step. -/
theorem own_desc {e : OI K V} {et et' : NI K V} {c : Node K V} {L : Multiset (Handle (ND K V))}
    (h : IRel D e et L) (hn : niOps.next et = some (et', some (.desc c))) :
    wp ((ownOps D).next e) L (fun y L' => ∃ k L1 L2, y.2 = some (.desc k) ∧ OKidR k c L1 ∧
      (vt c).Dep D ∧ IRel D y.1 et' L2 ∧ L' = L1 + L2) := by
  have inv : ∀ {es kt b}, et = ⟨es, kt, b⟩ → b = false ∧ ∃ kt', kt = c :: kt' ∧
      et' = ⟨es, kt', true⟩ := by
    rintro es kt b rfl
    cases b with
    | true => cases es <;> simp [niOps] at hn
    | false =>
      cases kt with
      | nil => simp [niOps] at hn
      | cons y kt =>
        simp only [niOps, Bool.false_eq_true, if_false, Option.some.injEq, Prod.mk.injEq,
          Act.desc.injEq] at hn
        obtain ⟨rfl, rfl⟩ := hn
        exact ⟨rfl, kt, rfl, rfl⟩
  have turn : ∀ {ex kx ek : Nat}, Turn ex kx ek false → (kx < ek ∧ kx ≤ ex) ∧
      Turn ex (kx + 1) ek true := by
    rintro ex kx ek (⟨-, rfl, h⟩ | ⟨h, -⟩)
    · exact ⟨⟨h, le_refl _⟩, Or.inr ⟨rfl, Or.inr rfl⟩⟩
    · cases h
  cases e with
  | owned es ks ex ee kx ek =>
    obtain ⟨kt, b, he, ht, h1, h2, h3, hd, rfl⟩ := h
    obtain ⟨rfl, kt', rfl, rfl⟩ := inv he
    obtain ⟨hk, ht'⟩ := turn ht
    simp only [ownOps]
    rw [if_pos hk]
    cases ks with
    | nil => simp at h3
    | cons k ks =>
      simp only [vts, owns_cons]
      refine wp_call (owns ks (vts kt')) tryKid_spec rfl ?_
      intro k L hkr
      simp only [List.length_cons] at h2 h3
      exact wp_pure ⟨k, L, _, rfl, hkr, hd c (by simp), ⟨kt', true, rfl, ht', h1, by omega,
        by omega, fun d hd' => hd d (by simp [hd']), rfl⟩, rfl⟩
  | leased a ex ee kx ek =>
    obtain ⟨nd, b, he, ht, rfl, rfl, hd, rfl⟩ := h
    obtain ⟨rfl, kt', h1, rfl⟩ := inv he
    obtain ⟨hk, ht'⟩ := turn ht
    have hx : nd.kids[kx]? = some c := by
      have := congrArg List.head? h1
      simpa using this
    simp only [ownOps]
    rw [if_pos hk]
    refine wp_bind (wp_conseq (incKid_spec hx) ?_)
    rintro r _ rfl
    refine wp_call (own (some a) (vt nd)) tryKid_spec rfl ?_
    intro k L hkr
    refine wp_pure ⟨k, L, _, rfl, hkr, ?_, ⟨nd, true, ?_, ht', rfl, rfl, hd, rfl⟩, rfl⟩
    · obtain ⟨D, rfl⟩ := dep_pos hd
      exact (dep_kids hd c (List.mem_of_getElem? hx)).mono (by omega)
    · have := congrArg List.tail h1
      simp only [List.tail_drop, List.tail_cons] at this
      rw [this]

/-- The last step. -/
theorem own_stop {e : OI K V} {et et' : NI K V} {L : Multiset (Handle (ND K V))}
    (h : IRel D e et L) (hn : niOps.next et = some (et', none)) :
    (ownOps D).next e = .pure (e, none) := by
  have inv : ∀ {es kt b}, et = ⟨es, kt, b⟩ → (b = true ∧ es = []) ∨ (b = false ∧ kt = []) := by
    rintro es kt b rfl
    cases b with
    | true => cases es <;> simp [niOps] at hn ⊢
    | false => cases kt <;> simp [niOps] at hn ⊢
  cases e with
  | owned es ks ex ee kx ek =>
    obtain ⟨kt, b, he, ht, h1, h2, h3, hd, rfl⟩ := h
    rcases inv he with ⟨rfl, rfl⟩ | ⟨rfl, rfl⟩
    · simp only [List.length_nil] at h1
      simp only [ownOps]
      rw [if_neg, if_neg (by omega)]
      rcases ht with ⟨h, -⟩ | ⟨-, h⟩
      · cases h
      · omega
    · simp only [List.length_nil] at h3
      rcases ht with ⟨-, -, h⟩ | ⟨h, -⟩
      · omega
      · cases h
  | leased a ex ee kx ek =>
    obtain ⟨nd, b, he, ht, rfl, rfl, hd, rfl⟩ := h
    rcases inv he with ⟨rfl, h1⟩ | ⟨rfl, h1⟩
    · have h1 := List.drop_eq_nil_iff.1 h1
      simp only [ownOps]
      rw [if_neg, if_neg (by omega)]
      rcases ht with ⟨h, -⟩ | ⟨-, h⟩
      · cases h
      · omega
    · have h1 := List.drop_eq_nil_iff.1 h1
      rcases ht with ⟨-, -, h⟩ | ⟨h, -⟩
      · omega
      · cases h

theorem ownOk : GOk (ownOps (K := K) (V := V) D) niOps (IR D) (fun _ => Eq) where
  len h := IW.len h
  rev h := IW.reverse h
  ret := by
    rintro h s e w et et' x wt L hR hn
    cases hR with
    | @cons _ _ _ _ L1 L2 he hw =>
    refine wp_tail L2 (own_ret he hn) rfl ?_
    rintro y L' ⟨h1, h2⟩
    exact ⟨x, h1, rfl, .cons h2 hw⟩
  desc := by
    rintro h s e w et et' c j wt L hR hn hj
    cases hR with
    | @cons _ _ _ _ L1 L2 he hw =>
    refine wp_tail L2 (own_desc he hn) rfl ?_
    rintro y L' ⟨k, L3, L4, h1, h2, h3, h4, rfl⟩
    refine ⟨k, h1, ?_⟩
    refine wp_tail (L4 + L2) (own_make_spec h2 h3 hj) (by ac_rfl) ?_
    intro z L5 h5
    exact .cons h5 (.cons h4 hw)
  stop := by
    rintro h s e w et et' wt L hR hn
    cases hR with
    | @cons _ _ _ _ L1 L2 he hw =>
    rw [own_stop he hn]
    refine wp_pure ⟨rfl, ?_⟩
    refine wp_tail L2 (own_done_spec he) rfl ?_
    rintro _ _ rfl
    rw [zero_add]
    exact hw

theorem yldO_ok : YldOk (X := K × V) yldN (fun e => e) (IR D) (fun _ => Eq) (fun _ => True) := by
  rintro h s w wt L i x hR rfl -
  exact ⟨s, rfl, hR⟩

theorem dropWork_spec {w : List (OI K V)} {wt : List (NI K V)} {L : Multiset (Handle (ND K V))}
    (h : IW D w wt L) : wp (dropWork D w) L (fun _ L => L = 0) := by
  induction h with
  | nil => exact wp_pure rfl
  | @cons e et w wt L1 L2 h _ ih =>
    refine wp_call L2 (own_done_spec h) rfl ?_
    rintro _ _ rfl
    rw [zero_add]
    exact ih

theorem intoRun_spec {root : Option (Node K V)} {r : Option Nat} {len n : Nat} {ds : List Bool}
    {ys : List (Option (K × V) × Nat)} (hd : ∀ nd, root = some nd → (vt nd).Dep D)
    (hn : ∀ nd, root = some nd → nodeCost nd ≤ n + 1)
    (h : (FMap.mk root len).iterRun ds = some ys) :
    wp (intoRun D (n + 1) ds r len) (own r (vtO root)) (fun x L => x = ys ∧ L = 0) := by
  rcases run_some h with ⟨rfl, rfl⟩ | ⟨nd, i, it, rfl, hi, hr⟩
  · refine wp_root (r := r) (root := none) 0 (add_zero _).symm ?_ (by rintro a nd rfl h; cases h)
    rintro rfl -
    simp only [intoRun, intoNew, Prog.bind, run_nil]
    exact wp_pure ⟨rfl, rfl⟩
  · refine wp_root (r := r) (root := some nd) 0 (add_zero _).symm (by intro _ h; cases h) ?_
    rintro a nd rfl h
    cases h
    rw [add_zero]
    have hc := (start_cost hi).2.2
    have hnew : wp (intoNew D (some a) len) (own (some a) (vt nd)) (fun it L =>
        it.len = len ∧ IW D it.work [i] L) := by
      simp only [intoNew]
      refine wp_bind (wp_conseq tryKid_spec ?_)
      intro k L hk
      refine wp_bind (wp_conseq (own_make_spec hk (hd _ rfl) hi) ?_)
      intro x L' hx
      refine wp_pure ⟨rfl, ?_⟩
      have := IW.cons hx IW.nil
      rwa [add_zero] at this
    simp only [intoRun]
    refine wp_bind (wp_conseq hnew ?_)
    rintro it L ⟨h1, h2⟩
    refine wp_bind (wp_conseq (run_ok ni_tame ownOk yldO_ok (fun _ _ _ => trivial) (h := [])
      (jt := ⟨[i], len⟩) (by rw [hc]; exact hn _ rfl) h1 h2 hr trivial) ?_)
    rintro x L ⟨h3, h4⟩
    refine wp_bind (wp_conseq (dropWork_spec h4) ?_)
    rintro _ _ rfl
    exact wp_pure ⟨by rw [h3, map_id'], rfl⟩

end

end Verif.FixedH
