import Verif.Heap.Machine
/-!
# Deep copies

What `clone` would be without sharing: a copy of every node.  This is not code of the crate; it is
what the clones of the crate are compared with.
-/
namespace Verif.Heap
variable {P : Type}

/-- Copy the links of a node, the one with number `i` by `f i` if it is not empty. -/
def deepKids (f : Nat → Prog P Nat) : Nat → List (Option Nat) → Prog P (List (Option Nat))
  | _, [] => .pure []
  | i, none :: ks => (deepKids f (i + 1) ks).bind fun rs => .pure (none :: rs)
  | i, some _ :: ks => (f i).bind fun b => (deepKids f (i + 1) ks).bind fun rs =>
      .pure (some b :: rs)

/-- Copy the node reached by `path` with everything below it. -/
def deepAt (a : Nat) : Nat → List Nat → Prog P Nat
  | 0, _ => .panic
  | n + 1, path =>
    (lift (.read a path)).bind fun x =>
    (deepKids (fun i => deepAt a n (path ++ [i])) 0 x.kids).bind fun ks =>
    (lift (.alloc ⟨x.data, ks⟩)).bind fun b => .pure b

/-- A copy of all nodes, by new nodes only; `n` bounds the depth. -/
def deepClone (n : Nat) : Option Nat → Prog P (Option Nat)
  | none => .pure none
  | some a => (deepAt a n []).bind fun b => .pure (some b)

theorem VT.sub_snoc {p : P} {ts : List (VT P)} : ∀ {t : VT P} {path : List Nat} {i : Nat}
    (hi : i < ts.length), t.sub path = some (.node p ts) → t.sub (path ++ [i]) = some ts[i]
  | t, [], i, hi, h => by
    simp only [VT.sub, Option.some.injEq] at h
    subst h
    simp [VT.sub, List.getElem?_eq_getElem hi]
  | .nil, _ :: _, i, hi, h => by simp [VT.sub] at h
  | .node q ss, j :: path, i, hi, h => by
    simp only [VT.sub, List.cons_append] at h ⊢
    split at h
    · cases h
    · exact VT.sub_snoc hi h

variable {a : Nat} {t : VT P} {u : Bool}

theorem wp_deepKids {f : Nat → Prog P Nat} {E : Multiset (Handle P)} {ts : List (VT P)}
    (hf : ∀ i (hi : i < ts.length), ts[i] ≠ .nil →
      wp (f i) E (fun b L => L = own (some b) ts[i] + E)) :
    ∀ (ks : List (Option Nat)) (i : Nat), i + ks.length = ts.length →
    (∀ j (h1 : j < ks.length) (h2 : i + j < ts.length), (ks[j] = none ↔ ts[i + j] = .nil)) →
    wp (deepKids f i ks) E (fun rs L => (ts.drop i).length = rs.length ∧
      L = owns rs (ts.drop i) + E) := by
  intro ks
  induction ks with
  | nil =>
    intro i hi _
    have : ts.drop i = [] := List.drop_eq_nil_of_le (by simp at hi; omega)
    exact wp_pure (by simp [this, owns])
  | cons k ks ih =>
    intro i hi hk
    simp only [List.length_cons] at hi
    have hlt : i < ts.length := by omega
    have ih' := ih (i + 1) (by omega) (fun j h1 h2 => by
      have := hk (j + 1) (by simpa using h1) (by omega)
      simp only [List.getElem_cons_succ] at this
      rw [this]
      have e : i + (j + 1) = i + 1 + j := by omega
      simp only [e])
    have h0 := hk 0 (by simp) hlt
    simp only [List.getElem_cons_zero, Nat.add_zero] at h0
    rw [List.drop_eq_getElem_cons hlt]
    cases k with
    | none =>
      have hn := h0.1 rfl
      simp only [deepKids]
      refine wp_call 0 ih' (by simp) ?_
      rintro rs _ ⟨h1, rfl⟩
      refine wp_pure ⟨by simp only [List.length_cons, ← h1], ?_⟩
      rw [owns_cons, hn]
      simp
    | some b =>
      have hn : ts[i] ≠ .nil := fun h => by have := h0.2 h; cases this
      simp only [deepKids]
      refine wp_call 0 (hf i hlt hn) (by simp) ?_
      rintro b _ rfl
      refine wp_call (own (some b) ts[i]) ih' (by rw [add_zero, add_comm]) ?_
      rintro rs _ ⟨h1, rfl⟩
      refine wp_pure ⟨by simp only [List.length_cons, ← h1], ?_⟩
      rw [owns_cons]
      ac_rfl

theorem wp_deepAt : ∀ {n : Nat} {path : List Nat} {s : VT P}, s.Dep n → s ≠ .nil →
    t.sub path = some s →
    wp (deepAt a n path) {⟨some a, t, u⟩} (fun b L => L = own (some b) s + {⟨some a, t, u⟩}) := by
  intro n path s hd
  induction hd generalizing path with
  | nil => intro h; exact absurd rfl h
  | @node n p ts hd ih =>
    intro _ hs
    simp only [deepAt]
    refine wp_read (u := u) 0 (add_zero _).symm hs ?_
    intro x hx hl hk
    subst hx
    refine wp_call 0 (wp_deepKids (ts := ts) (E := {⟨some a, t, u⟩}) ?_ x.kids 0 (by omega) ?_)
      (by simp) ?_
    · intro i hi hn
      exact ih _ (List.getElem_mem hi) hn (VT.sub_snoc hi hs)
    · intro j h1 h2
      simp only [Nat.zero_add] at h2 ⊢
      exact hk j h1 h2
    · rintro ks _ ⟨h1, rfl⟩
      rw [List.drop_zero] at h1
      rw [List.drop_zero, add_zero]
      refine wp_alloc {⟨some a, t, u⟩} h1 rfl ?_
      intro b
      exact wp_forget {⟨some a, t, u⟩} rfl (wp_pure rfl)

theorem wp_deepClone {n : Nat} {r : Option Nat} {t : VT P} (hd : t.Dep n) :
    wp (deepClone n r) (own r t) (fun r' L => L = own r t + own r' t) := by
  refine wp_own_cases (r := r) (t := t) 0 (by simp) ?_ ?_
  · rintro rfl rfl; exact wp_pure (by simp)
  · rintro a q ts rfl rfl
    rw [add_zero]
    simp only [deepClone]
    refine wp_call 0 (wp_deepAt (path := []) (u := false) hd (by simp) rfl) (by simp; rfl) ?_
    rintro b _ rfl
    exact wp_pure (by rw [add_zero, add_comm]; rfl)

/-! ## A deep copy shares nothing -/

/-- Steps that read, or make new nodes. -/
def Op.Fresh : Op P → Prop
  | .alloc _ | .read _ _ => True
  | _ => False

/-- Only such steps, whatever they return. -/
def Prog.Fresh {α : Type} : Prog P α → Prop
  | .pure _ | .panic => True
  | .op o k => o.Fresh ∧ ∀ r, (k r).Fresh

theorem Prog.Fresh.bind {α β : Type} {p : Prog P α} {f : α → Prog P β} (hf : ∀ x, (f x).Fresh) :
    p.Fresh → (p.bind f).Fresh := by
  induction p with
  | pure x => intro _; exact hf x
  | panic => intro _; exact trivial
  | op o k ih => rintro ⟨h1, h2⟩; exact ⟨h1, fun r => ih r (h2 r)⟩

theorem deepKids_fresh {f : Nat → Prog P Nat} (hf : ∀ i, (f i).Fresh) :
    ∀ (ks : List (Option Nat)) (i : Nat), (deepKids f i ks).Fresh
  | [], _ => trivial
  | none :: ks, i => (deepKids_fresh hf ks (i + 1)).bind fun _ => trivial
  | some _ :: ks, i => (hf i).bind fun _ => (deepKids_fresh hf ks (i + 1)).bind fun _ => trivial

theorem deepAt_fresh (a : Nat) : ∀ (n : Nat) (path : List Nat), (deepAt (P := P) a n path).Fresh
  | 0, _ => trivial
  | n + 1, path => by
    refine ⟨trivial, fun x => ?_⟩
    show Prog.Fresh ((deepKids _ 0 x.kids).bind _)
    refine Prog.Fresh.bind (fun ks => ?_)
      (deepKids_fresh (fun i => deepAt_fresh a n (path ++ [i])) x.kids 0)
    exact ⟨trivial, fun _ => trivial⟩

theorem Prog.Fresh.cells {α : Type} {p : Prog P α} : ∀ {h h' : Mem P} {x}, p.Fresh →
    p.exec h = some (h', x) → h.next ≤ h'.next ∧ ∀ a, a < h.next → h'.cells a = h.cells a := by
  induction p with
  | pure x => rintro h h' x _ ⟨⟩; exact ⟨le_rfl, fun _ _ => rfl⟩
  | panic => rintro h h' x _ ⟨⟩; exact ⟨le_rfl, fun _ _ => rfl⟩
  | op o k ih =>
    rintro h h' x ⟨h1, h2⟩ e
    simp only [Prog.exec] at e
    cases o with
    | alloc n =>
      obtain ⟨g1, g2⟩ := ih _ (h2 _) e
      simp only at g1 g2
      refine ⟨by omega, fun a ha => ?_⟩
      rw [g2 a (by omega)]
      simp [Mem.put, Nat.ne_of_lt ha]
    | read a path =>
      split at e
      · cases e
      · next heq =>
        simp only [Op.step, Option.map_eq_some_iff] at heq
        obtain ⟨c, -, heq⟩ := heq
        cases heq
        exact ih _ (h2 _) e
    | _ => exact h1.elim

/-- A deep copy leaves every node that was there as it was, count included: the copy has no node
in common with anything. -/
theorem deepClone_shares_nothing {n : Nat} {r : Option Nat} {h h' : Mem P} {x}
    (e : (deepClone n r).exec h = some (h', x)) (a : Nat) (ha : a < h.next) :
    h'.cells a = h.cells a := by
  refine (Prog.Fresh.cells ?_ e).2 a ha
  cases r with
  | none => exact trivial
  | some b => exact (deepAt_fresh b n []).bind fun _ => trivial

end Verif.Heap
