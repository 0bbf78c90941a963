import Verif.Wild.Range
/-!
# Proofs about `range` under lawless comparisons
-/
set_option linter.unusedSectionVars false
namespace Verif.BTree
open Verif.Wild Node
universe w
variable {σ : Type w} {K V : Type} {N : Nat}

/-- The bound excludes a key. -/
def WBnd.ex : WBnd σ K → Bool
  | .excluded _ => true
  | _ => false

/-- The comparison with the bound may panic on a key of the list. -/
def WBnd.Panics : WBnd σ K → List (K × V) → Prop
  | .unbounded, _ => False
  | .included c, es => Wild.Panics c es
  | .excluded c, es => Wild.Panics c es

theorem WBnd.Panics.mono {b : WBnd σ K} {l l' : List (K × V)} (h : b.Panics l)
    (hl : ∀ e ∈ l, e ∈ l') : b.Panics l' := by
  cases b with
  | unbounded => exact h
  | included c => obtain ⟨e, he, h⟩ := h; exact ⟨e, hl e he, h⟩
  | excluded c => obtain ⟨e, he, h⟩ := h; exact ⟨e, hl e he, h⟩

theorem cmpBdW_none {b : WBnd σ K} {e : K × V} {s : σ} (h : (cmpBdW b e.1 s).1 = none) :
    b.Panics [e] := by
  cases b with
  | unbounded => simp [cmpBdW] at h
  | included c =>
    refine ⟨e, by simp, s, ?_⟩
    revert h
    rw [cmpBdW]
    rcases c e.1 s with ⟨_ | _ | _ | _, s'⟩ <;> simp
  | excluded c =>
    refine ⟨e, by simp, s, ?_⟩
    revert h
    rw [cmpBdW]
    rcases c e.1 s with ⟨_ | _ | _ | _, s'⟩ <;> simp

theorem cmpBdW_unb {b : WBnd σ K} {k : K} {s : σ} (h : (cmpBdW b k s).1 = some .unbounded) :
    b = .unbounded := by
  cases b with
  | unbounded => rfl
  | included c =>
    rw [cmpBdW] at h
    rcases hc : c k s with ⟨_ | _ | _ | _, s'⟩ <;> rw [hc] at h <;> simp at h
  | excluded c =>
    rw [cmpBdW] at h
    rcases hc : c k s with ⟨_ | _ | _ | _, s'⟩ <;> rw [hc] at h <;> simp at h

theorem cmpBdW_ex {b : WBnd σ K} {k : K} {s : σ} (h : (cmpBdW b k s).1 = some (.equal false)) :
    b.ex = true := by
  cases b with
  | unbounded => simp [cmpBdW] at h
  | included c =>
    rw [cmpBdW] at h
    rcases hc : c k s with ⟨_ | _ | _ | _, s'⟩ <;> rw [hc] at h <;> simp at h
  | excluded c => rfl

/-- An order, for the lemmas that need none. -/
@[reducible] def anyOrd : Ord K := ⟨fun _ _ => .eq⟩

theorem anyTrans : @Std.TransOrd K anyOrd := by
  letI : Ord K := anyOrd
  exact { eq_swap := rfl, isLE_trans := fun _ _ => rfl }

/-- The edges cut the elements in three; the children are cut accordingly. -/
structure Shape (es : List (K × V)) (ed : Edges) (A M B : List (K × V)) (lk rk : Cut) : Prop where
  split : es = A ++ (M ++ B)
  lbE : ed.lbE = A.length
  lbK : ed.lbK = A.length + (if lk = .elem then 1 else 0)
  lp : ed.lp = decide (lk = .prune)
  ubE : ed.ubE = A.length + M.length
  ubK : ed.ubK = A.length + M.length + (if rk = .elem then 0 else 1)
  rp : ed.rp = decide (rk = .prune)

theorem findLW_shape (lb : WBnd σ K) : ∀ (i : Nat) (es : List (K × V)) (s : σ),
    match findLW lb i es s with
    | (none, _) => lb.Panics es
    | (some r, _) => ∃ A R, es = A ++ R ∧ r.2 = (i + A.length, R) ∧
        (r.1 = (i + A.length, i + A.length, true) ∨
         (r.1 = (0, 0, false) ∧ A = [] ∧ lb = .unbounded) ∨
         r.1 = (i + A.length, i + A.length + 1, false) ∨
         (r.1 = (i + A.length + 1, i + A.length + 1, false) ∧ lb.ex = true))
  | i, [], s => ⟨[], [], rfl, rfl, .inl rfl⟩
  | i, e :: es, s => by
    rw [findLW]
    have h0 := @cmpBdW_none σ K V lb e s
    have h1 := @cmpBdW_unb σ K lb e.1 s
    have h2 := @cmpBdW_ex σ K lb e.1 s
    rcases hc : cmpBdW lb e.1 s with ⟨_ | _ | _ | isIn | _, s'⟩ <;> rw [hc] at h0 h1 h2
    · exact (h0 rfl).mono (by simp)
    · exact ⟨[], e :: es, rfl, rfl, .inr (.inl ⟨rfl, rfl, h1 rfl⟩)⟩
    · exact ⟨[], e :: es, rfl, rfl, .inl rfl⟩
    · cases isIn with
      | true => exact ⟨[], e :: es, rfl, rfl, .inr (.inr (.inl rfl))⟩
      | false => exact ⟨[], e :: es, rfl, rfl, .inr (.inr (.inr ⟨rfl, h2 rfl⟩))⟩
    · have ih := findLW_shape lb (i + 1) es s'
      simp only
      rcases hf : findLW lb (i + 1) es s' with ⟨_ | r, s2⟩ <;> rw [hf] at ih <;> simp only at ih ⊢
      · exact ih.mono (by simp +contextual)
      · obtain ⟨A, R, e1, e2, e3⟩ := ih
        refine ⟨e :: A, R, by simp [e1], by rw [e2]; simp; omega, ?_⟩
        have e4 : i + (e :: A).length = i + 1 + A.length := by simp; omega
        rw [e4]
        rcases e3 with h | ⟨-, -, h⟩ | h | h
        · exact .inl h
        · subst h; simp [cmpBdW] at hc
        · exact .inr (.inr (.inl h))
        · exact .inr (.inr (.inr h))

theorem findRW_shape (ub : WBnd σ K) : ∀ (i : Nat) (es : List (K × V)) (s : σ),
    match findRW (i + es.length) ub i es s with
    | (none, _) => ub.Panics es
    | (some r, _) => ∃ M B, ∃ rk : Cut, es = M ++ B ∧
        r = (i + M.length, i + M.length + (if rk = .elem then 0 else 1), decide (rk = .prune))
  | i, [], s => ⟨[], [], .prune, rfl, rfl⟩
  | i, e :: es, s => by
    rw [findRW]
    have h0 := @cmpBdW_none σ K V ub e s
    rcases hc : cmpBdW ub e.1 s with ⟨_ | _ | _ | isIn | _, s'⟩ <;> rw [hc] at h0
    · exact (h0 rfl).mono (by simp)
    · exact ⟨e :: es, [], .kid, by simp, rfl⟩
    · exact ⟨[], e :: es, .prune, rfl, rfl⟩
    · cases isIn with
      | true => exact ⟨[e], es, .elem, rfl, rfl⟩
      | false => exact ⟨[], e :: es, .kid, rfl, rfl⟩
    · have ih := findRW_shape ub (i + 1) es s'
      have e4 : i + (e :: es).length = i + 1 + es.length := by simp; omega
      rw [e4]
      simp only
      rcases hf : findRW (i + 1 + es.length) ub (i + 1) es s' with ⟨_ | r, s2⟩ <;> rw [hf] at ih <;>
        simp only at ih ⊢
      · exact ih.mono (by simp +contextual)
      · obtain ⟨M, B, rk, e1, e2⟩ := ih
        refine ⟨e :: M, B, rk, by simp [e1], ?_⟩
        rw [e2]
        have e5 : i + (e :: M).length = i + 1 + M.length := by simp; omega
        rw [e5]

theorem edgesW_shape (lb ub : WBnd σ K) (es : List (K × V)) (s : σ) :
    match edgesW lb ub es s with
    | (none, _) => lb.Panics es ∨ ub.Panics es
    | (some ed, _) => (lb.ex = true ∧ ed.ubE < ed.lbE) ∨ ∃ A M B lk rk, Shape es ed A M B lk rk := by
  rw [edgesW]
  have h1 := findLW_shape lb 0 es s
  rcases hf : findLW lb 0 es s with ⟨_ | l, s1⟩ <;> rw [hf] at h1 <;> simp only at h1 ⊢
  · exact .inl h1
  · obtain ⟨A, R, e1, e2, e3⟩ := h1
    simp only [Nat.zero_add] at e2 e3
    have hl : es.length = A.length + R.length := by rw [e1]; simp
    have h2 := findRW_shape ub A.length R s1
    rw [hl, e2]
    rcases hf : findRW (A.length + R.length) ub A.length R s1 with ⟨_ | r, s2⟩ <;> rw [hf] at h2 <;>
      simp only [hf] at h2 ⊢
    · exact .inr (h2.mono (by rw [e1]; simp +contextual))
    · obtain ⟨M, B, rk, r1, r2⟩ := h2
      subst r2
      rcases e3 with h | ⟨h, rfl, -⟩ | h | ⟨h, hx⟩
      · exact .inr ⟨A, M, B, .prune, rk, by rw [e1, r1], by rw [h], by rw [h]; rfl, by rw [h]; rfl,
          rfl, rfl, rfl⟩
      · exact .inr ⟨[], M, B, .kid, rk, by rw [e1, r1], by rw [h]; rfl, by rw [h]; rfl,
          by rw [h]; rfl, rfl, rfl, rfl⟩
      · exact .inr ⟨A, M, B, .elem, rk, by rw [e1, r1], by rw [h], by rw [h]; rfl, by rw [h]; rfl,
          rfl, rfl, rfl⟩
      · cases M with
        | nil => exact .inl ⟨hx, by rw [h]; simp⟩
        | cons x M =>
          have e5 : A.length + (x :: M).length = (A ++ [x]).length + M.length := by simp; omega
          exact .inr ⟨A ++ [x], M, B, .kid, rk, by rw [e1, r1]; simp, by rw [h]; simp,
            by rw [h]; simp, by rw [h]; rfl, e5, by simp only; rw [e5], rfl⟩

/-- A work list that is well shaped and holds some of the entries of `l`, in their order. -/
def GoodW (N : Nat) (w : List (NIter (K × V) (Node K V))) (l : List (K × V)) : Prop :=
  (∀ e ∈ w, e.Ok true (KidOk N)) ∧ (witems toList w).Sublist l

theorem GoodW.nil (N : Nat) (l : List (K × V)) : GoodW N [] l := ⟨by simp, by simp⟩

theorem GoodW.mono {w : List (NIter (K × V) (Node K V))} {l l' : List (K × V)} (h : GoodW N w l)
    (hl : l.Sublist l') : GoodW N w l' := ⟨h.1, h.2.trans hl⟩

theorem GoodW.append {w1 w2 : List (NIter (K × V) (Node K V))} {l1 l2 : List (K × V)}
    (h1 : GoodW N w1 l1) (h2 : GoodW N w2 l2) : GoodW N (w1 ++ w2) (l1 ++ l2) := by
  refine ⟨fun e he => ?_, ?_⟩
  · rcases List.mem_append.1 he with he | he
    · exact h1.1 e he
    · exact h2.1 e he
  · rw [show witems toList (w1 ++ w2) = witems toList w1 ++ witems toList w2 by simp [witems]]
    exact h1.2.append h2.2

/-- The entries below the `i`th child. -/
def below (ks : List (Node K V)) (i : Nat) : List (K × V) := (ks[i]?).elim [] toList

/-- What a node makes of the work lists of the children it prunes. -/
theorem node_good {es : List (K × V)} {ks : List (Node K V)} {ed : Edges} {A M B lk rk}
    (E : Shape es ed A M B lk rk) (hk0 : ks = [] ∨ ks.length = es.length + 1)
    (hok : ∀ c ∈ ks, KidOk N c) :
    let elems := (es.take ed.ubE).drop ed.lbE
    let kids := getSlice ks ed.lbK ed.ubK
    let kids1 := if ed.lp then kids.tail else kids
    let kids2 := if ed.rp then kids1.dropLast else kids1
    let erg : List (NIter (K × V) (Node K V)) :=
      if elems.isEmpty && kids2.isEmpty then []
      else [⟨elems, kids2, !ed.lp && decide (ed.lbE = ed.lbK),
        !ed.rp && decide (ed.ubE < ed.ubK)⟩]
    (ed.lp = true → kids.length = 1 → ed.rp = true → elems = []) ∧
    ∀ w1 w2, (if ed.lp && !kids.isEmpty then GoodW N w1 (below ks ed.lbK) else w1 = []) →
      (if ed.rp && !kids1.isEmpty then GoodW N w2 (below ks (ed.ubK - 1)) else w2 = []) →
      GoodW N (w1 ++ erg ++ w2) (toList (.mk es ks)) := by
  intro elems kids kids1 kids2 erg
  have hsl : elems = M := by
    show (es.take ed.ubE).drop ed.lbE = M
    rw [E.lbE, E.ubE, E.split]; simp [List.take_append]
  clear_value elems
  subst elems
  have herg : erg = if M.isEmpty && kids2.isEmpty then [] else
      [⟨M, kids2, !ed.lp && decide (ed.lbE = ed.lbK), !ed.rp && decide (ed.ubE < ed.ubK)⟩] := rfl
  letI : Ord K := anyOrd
  haveI : Std.TransOrd K := anyTrans
  rcases hk0 with rfl | hkl
  · have hkids : kids = [] := getSlice_nil _ _
    have hk1 : kids1 = [] := by show (if ed.lp then kids.tail else kids) = []; rw [hkids]; simp
    have hk2 : kids2 = [] := by show (if ed.rp then kids1.dropLast else kids1) = []; rw [hk1]; simp
    refine ⟨by rw [hkids]; simp, fun w1 w2 h1 h2 => ?_⟩
    rw [hkids] at h1
    rw [hk1] at h2
    simp only [List.isEmpty_nil, Bool.not_true, Bool.and_false, Bool.false_eq_true, if_false] at h1 h2
    subst h1 h2
    show GoodW N ([] ++ (if M.isEmpty && kids2.isEmpty then [] else _) ++ []) _
    rw [hk2]
    cases M with
    | nil => simpa using GoodW.nil N _
    | cons m M =>
      simp only [List.isEmpty_cons, Bool.false_and, Bool.false_eq_true, if_false, List.nil_append,
        List.append_nil]
      refine ⟨fun e he => ?_, ?_⟩
      · simp only [List.mem_singleton] at he
        subst he
        exact ⟨by simp, Or.inl ⟨rfl, by simp⟩⟩
      · rw [toList_mk, inter_nil, E.split]
        simp only [NIter.items, witems_cons, witems_nil, List.append_nil]
        have : (m :: M).Sublist (A ++ (m :: M ++ B)) :=
          (List.sublist_append_left _ _).trans (List.sublist_append_right _ _)
        split <;> simpa using this
  · obtain ⟨kA, kR0, hk1, hkA⟩ := split_len ks A.length (by rw [hkl, E.split]; simp; omega)
    have hkR0 : kR0.length = M.length + B.length + 1 := by
      have := congrArg List.length hk1
      have := congrArg List.length E.split
      simp at *; omega
    obtain ⟨ca, kR, rfl⟩ : ∃ ca kR, kR0 = ca :: kR := by
      cases kR0 with
      | nil => simp at hkR0
      | cons c r => exact ⟨c, r, rfl⟩
    have hkR : kR.length = M.length + B.length := by simpa using hkR0
    have hL : toList (.mk es ks) = inter kA A ++ (toList ca ++ post (M ++ B) kR) := by
      rw [toList_mk, hk1, E.split, inter_append hkA, inter_cons]
    have hcaok : KidOk N ca := hok ca (by rw [hk1]; simp)
    have hbca : below ks A.length = toList ca := by
      rw [below, hk1, ← hkA]; simp
    rw [hL]
    cases M with
    | nil =>
      refine ⟨fun _ _ _ => rfl, fun w1 w2 h1 h2 => ?_⟩
      refine GoodW.mono (l := toList ca) ?_
        ((List.sublist_append_left _ _).trans (List.sublist_append_right _ _))
      have hkids : kids = if lk = .elem ∨ rk = .elem then [] else [ca] := by
        show getSlice ks ed.lbK ed.ubK = _
        rw [E.lbK, E.ubK]
        by_cases hEl : lk = .elem ∨ rk = .elem
        · rw [if_pos hEl]
          apply getSlice_empty
          rcases hEl with rfl | rfl <;> simp
          split <;> omega
        · simp only [not_or] at hEl
          rw [if_neg hEl.1, if_neg hEl.2, if_neg (not_or.2 hEl), hk1]
          exact getSlice_mid kA [ca] kR (by simp [hkA]) (by simp [hkA])
      have hub1 : rk ≠ .elem → ed.ubK - 1 = A.length := by
        intro h; rw [E.ubK, if_neg h]; simp
      have hlb1 : lk ≠ .elem → ed.lbK = A.length := by
        intro h; rw [E.lbK, if_neg h]; simp
      show GoodW N (w1 ++ (if ([] : List (K × V)).isEmpty && kids2.isEmpty then [] else
        [⟨[], kids2, !ed.lp && decide (ed.lbE = ed.lbK), !ed.rp && decide (ed.ubE < ed.ubK)⟩]) ++ w2) _
      have e1 : kids1 = if lk = .prune then [] else kids := by
        show (if ed.lp then kids.tail else kids) = _
        rw [E.lp, hkids]
        cases lk <;> cases rk <;> simp
      have e2 : kids2 = if lk = .kid ∧ rk = .kid then [ca] else [] := by
        show (if ed.rp then kids1.dropLast else kids1) = _
        rw [E.rp, e1, hkids]
        cases lk <;> cases rk <;> simp
      rw [e2]
      rw [hkids, E.lp] at h1
      rw [e1, hkids, E.rp] at h2
      cases lk <;> cases rk <;> simp at h1 h2 ⊢
      · subst h2
        rw [hlb1 (by simp), hbca] at h1
        simpa using h1
      · subst h2
        rw [hlb1 (by simp), hbca] at h1
        simpa using h1
      · subst h1 h2; exact GoodW.nil N _
      · subst h1
        rw [hub1 (by simp), hbca] at h2
        simpa using h2
      · subst h1 h2
        refine ⟨fun e he => ?_, ?_⟩
        · simp only [List.nil_append, List.mem_singleton] at he
          subst he
          refine ⟨by simpa using hcaok, Or.inr ⟨by simp, true, ?_, fun _ => ?_⟩⟩
          · simp [E.lp, E.lbE, hlb1 (by simp)]
          · simp [E.rp, E.ubE, E.ubK]
        · simp [NIter.items, E.lp, E.lbE, hlb1 (by simp), ilv_cons]
      · subst h1 h2; exact GoodW.nil N _
      · subst h1 h2; exact GoodW.nil N _
      · subst h1 h2; exact GoodW.nil N _
      · subst h1 h2; exact GoodW.nil N _
    | cons m M' =>
      generalize hM : m :: M' = M at *
      have hMne : M.isEmpty = false := by rw [← hM]; rfl
      have hMpos : 1 ≤ M.length := by rw [← hM]; simp
      obtain ⟨mid, kR1, hkR1, hmid⟩ := split_len kR (M.length - 1) (by omega)
      obtain ⟨d, kB, rfl⟩ : ∃ d kB, kR1 = d :: kB := by
        cases kR1 with
        | nil => rw [hkR1] at hkR; simp at hkR; omega
        | cons c r => exact ⟨c, r, rfl⟩
      have hml : M.length = mid.length + 1 := by omega
      have hdok : KidOk N d := hok d (by rw [hk1, hkR1]; simp)
      have hmidok : ∀ c ∈ mid, KidOk N c := fun c hc => hok c (by rw [hk1, hkR1]; simp [hc])
      rw [hkR1, post_split hml]
      have hbd : below ks (A.length + M.length) = toList d := by
        have e1 : ks = (kA ++ ca :: mid) ++ d :: kB := by rw [hk1, hkR1]; simp
        have e2 : A.length + M.length = (kA ++ ca :: mid).length := by simp [hkA]; omega
        rw [below, e1, e2]; simp
      have hkids : kids =
          (if lk = .elem then [] else [ca]) ++ (mid ++ (if rk = .elem then [] else [d])) := by
        show getSlice ks ed.lbK ed.ubK = _
        rw [E.lbK, E.ubK, hk1, hkR1]
        by_cases hl : lk = .elem <;> by_cases hr : rk = .elem <;>
          simp only [hl, hr, if_true, if_false]
        · rw [show kA ++ ca :: (mid ++ d :: kB) = (kA ++ [ca]) ++ (mid ++ (d :: kB)) by simp]
          rw [getSlice_mid _ _ _ (by simp [hkA]) (by simp [hkA]; omega)]; simp
        · rw [show kA ++ ca :: (mid ++ d :: kB) = (kA ++ [ca]) ++ ((mid ++ [d]) ++ kB) by simp]
          rw [getSlice_mid _ _ _ (by simp [hkA]) (by simp [hkA]; omega)]; simp
        · rw [show kA ++ ca :: (mid ++ d :: kB) = kA ++ ((ca :: mid) ++ (d :: kB)) by simp]
          rw [getSlice_mid _ _ _ (by simp [hkA]) (by simp [hkA]; omega)]; simp
        · rw [show kA ++ ca :: (mid ++ d :: kB) = kA ++ ((ca :: mid ++ [d]) ++ kB) by simp]
          rw [getSlice_mid _ _ _ (by simp [hkA]) (by simp [hkA]; omega)]; simp
      have e1 : kids1 =
          (if lk = .kid then [ca] else []) ++ (mid ++ (if rk = .elem then [] else [d])) := by
        show (if ed.lp then kids.tail else kids) = _
        rw [E.lp, hkids]
        cases lk <;> simp
      have e2 : kids2 =
          (if lk = .kid then [ca] else []) ++ (mid ++ (if rk = .kid then [d] else [])) := by
        show (if ed.rp then kids1.dropLast else kids1) = _
        rw [E.rp, e1]
        cases rk <;> simp [← List.append_assoc, - List.append_assoc]
      have hlf : (!ed.lp && decide (ed.lbE = ed.lbK)) = decide (lk = .kid) := by
        rw [E.lp, E.lbE, E.lbK]; cases lk <;> simp
      have hrt : (!ed.rp && decide (ed.ubE < ed.ubK)) = decide (rk = .kid) := by
        rw [E.rp, E.ubE, E.ubK]; cases rk <;> simp
      refine ⟨fun h1 h2 h3 => ?_, fun w1 w2 h1 h2 => ?_⟩
      · rw [E.lp] at h1
        rw [E.rp] at h3
        simp only [decide_eq_true_eq] at h1 h3
        rw [hkids, h1, h3] at h2
        simp at h2
      · rw [herg, hlf, hrt, e2, hMne]
        simp only [Bool.false_and, Bool.false_eq_true, if_false]
        -- the node iterator of this node
        have erg : GoodW N [⟨M, (if lk = .kid then [ca] else []) ++ (mid ++ (if rk = .kid then [d] else [])),
            decide (lk = .kid), decide (rk = .kid)⟩] ((if lk = .kid then toList ca else []) ++
            (ilvE toList M mid ++ (if rk = .kid then toList d else []))) := by
          refine ⟨fun e he => ?_, ?_⟩
          · simp only [List.mem_singleton] at he
            subst he
            refine ⟨fun c hc' => ?_, ?_⟩
            · simp only [List.mem_append] at hc'
              rcases hc' with hc' | hc' | hc'
              · split at hc' <;> simp at hc'
                subst hc'; exact hcaok
              · exact hmidok c hc'
              · split at hc' <;> simp at hc'
                subst hc'; exact hdok
            · by_cases h0 : (if lk = .kid then [ca] else []) ++
                (mid ++ (if rk = .kid then [d] else [])) = []
              · exact Or.inl ⟨h0, by rw [← hM]; simp⟩
              · refine Or.inr ⟨h0, decide (rk = .kid), ?_, fun _ => rfl⟩
                cases lk <;> cases rk <;> simp [hml] <;> omega
          · cases lk <;> cases rk <;> simp [NIter.items, ilv_cons, ilvE_snoc d hml]
        have g1 : GoodW N w1 (if lk = .prune then toList ca else []) := by
          rw [hkids, E.lp] at h1
          cases lk <;> simp at h1 ⊢
          · have : ed.lbK = A.length := by rw [E.lbK]; simp
            rw [this, hbca] at h1
            exact h1
          · subst h1; exact GoodW.nil N _
          · subst h1; exact GoodW.nil N _
        have g2 : GoodW N w2 (if rk = .prune then toList d else []) := by
          rw [e1, E.rp] at h2
          cases rk <;> simp at h2 ⊢
          · have : ed.ubK - 1 = A.length + M.length := by rw [E.ubK]; simp
            rw [this, hbd] at h2
            exact h2
          · subst h2; exact GoodW.nil N _
          · subst h2; exact GoodW.nil N _
        refine ((g1.append erg).append g2).mono ?_
        have hpre : ∀ l : List (K × V), l.Sublist (toList ca ++ (ilvE toList M mid ++ toList d)) →
            l.Sublist (inter kA A ++ (toList ca ++ (ilvE toList M mid ++ (toList d ++ post B kB)))) := by
          intro l hl
          refine List.Sublist.trans ?_ (List.sublist_append_right _ _)
          refine hl.trans ?_
          simp only [← List.append_assoc]
          exact List.sublist_append_left _ _
        apply hpre
        have s1 : ((if lk = .prune then toList ca else []) ++ (if lk = .kid then toList ca else [])).Sublist
            (toList ca) := by cases lk <;> simp
        have s2 : ((if rk = .kid then toList d else []) ++ (if rk = .prune then toList d else [])).Sublist
            (toList d) := by cases rk <;> simp
        have := s1.append ((List.Sublist.refl (ilvE toList M mid)).append s2)
        simpa only [List.append_assoc] using this

theorem mkWorkAtW_eq (lb ub : WBnd σ K) (s : σ) : ∀ (i : Nat) (ks : List (Node K V)),
    mkWorkAtW lb ub i ks s = match ks[i]? with
      | some c => mkWorkW lb ub c s
      | none => some (.done [], s)
  | i, [] => by simp [mkWorkAtW]
  | 0, c :: ks => by simp [mkWorkAtW]
  | i + 1, c :: ks => by
    rw [mkWorkAtW, mkWorkAtW_eq lb ub s i ks]
    simp

/-- What can come of a search between two bounds. -/
def WorkW (N : Nat) (lb ub : WBnd σ K) (l : List (K × V)) :
    Option (Ends Unit (List (NIter (K × V) (Node K V))) × σ) → Prop
  | none => lb.ex = true
  | some (.unwound _, _) => lb.Panics l ∨ ub.Panics l
  | some (.done w, _) => GoodW N w l

theorem mem_inter_of_kid {ks : List (Node K V)} {es : List (K × V)} {c : Node K V} {e : K × V}
    (h : c ∈ ks) (he : e ∈ toList c) : e ∈ inter ks es := by
  induction ks generalizing es with
  | nil => simp at h
  | cons d ks ih =>
    rw [inter_cons]
    rcases List.mem_cons.1 h with rfl | h
    · simp [he]
    · cases es with
      | nil => exact List.mem_append_right _ (ih (es := []) h)
      | cons x es => rw [post_cons]; simp [ih (es := es) h]

theorem mkWorkW_spec : ∀ (h lo : Nat) (n : Node K V), Node.Ok N lo h n →
    ∀ (lb ub : WBnd σ K) (s : σ), WorkW N lb ub n.toList (mkWorkW lb ub n s) := by
  intro h
  induction h using Nat.strongRecOn with
  | _ h ih =>
    rintro lo ⟨es, ks⟩ hn lb ub s
    have hks : (ks = [] ∨ ks.length = es.length + 1) ∧ (∀ c ∈ ks, KidOk N c) ∧
        ∀ c ∈ ks, ∀ (lb ub : WBnd σ K) (s : σ), WorkW N lb ub c.toList (mkWorkW lb ub c s) := by
      cases h with
      | zero => obtain ⟨rfl, -⟩ := hn; simp
      | succ h =>
        obtain ⟨h1, -, -, h2⟩ := hn
        exact ⟨.inr h1, fun c hc => ⟨h, h2 c hc⟩, fun c hc => ih h (Nat.lt_succ_self h) N c (h2 c hc)⟩
    obtain ⟨hk0, hok, hrec⟩ := hks
    have hin : ∀ e ∈ es, e ∈ toList (.mk es ks) := by
      letI : Ord K := anyOrd
      haveI : Std.TransOrd K := anyTrans
      rw [toList_mk]; exact mem_inter_of_elem ks
    have hkin : ∀ c ∈ ks, ∀ e ∈ toList c, e ∈ toList (.mk es ks) := by
      intro c hc e he
      rw [toList_mk]; exact mem_inter_of_kid hc he
    have hat : ∀ (lb ub : WBnd σ K) (i : Nat) (s : σ),
        match mkWorkAtW lb ub i ks s with
        | none => lb.ex = true
        | some (.unwound _, _) => lb.Panics (toList (.mk es ks)) ∨ ub.Panics (toList (.mk es ks))
        | some (.done w, _) => GoodW N w (below ks i) := by
      intro lb ub i s
      rw [mkWorkAtW_eq]
      cases hi : ks[i]? with
      | none => exact GoodW.nil N _
      | some c =>
        have hc := List.mem_of_getElem? hi
        have := hrec c hc lb ub s
        simp only [below, hi, Option.elim]
        rcases hm : mkWorkW lb ub c s with _ | ⟨u | w, s'⟩ <;> rw [hm] at this
        · exact this
        · exact this.imp (fun h => h.mono (hkin c hc)) (fun h => h.mono (hkin c hc))
        · exact this
    rw [mkWorkW]
    have he := edgesW_shape lb ub es s
    rcases hed : edgesW lb ub es s with ⟨_ | ed, s1⟩ <;> rw [hed] at he <;> simp only at he ⊢
    · exact he.imp (fun h => h.mono hin) (fun h => h.mono hin)
    · rcases he with ⟨hx, hlt⟩ | ⟨A, M, B, lk, rk, E⟩
      · rw [if_neg (by omega)]; exact hx
      · rw [if_pos (by rw [E.lbE, E.ubE, E.split]; simp)]
        obtain ⟨g1, g2⟩ := node_good E hk0 hok
        generalize hkids : getSlice ks ed.lbK ed.ubK = kids at g1 g2 ⊢
        generalize helems : (es.take ed.ubE).drop ed.lbE = elems at g1 g2 ⊢
        have hw1 : match (if (ed.lp && !kids.isEmpty) = true then
              if (kids.length == 1 && ed.rp) = true then
                if elems.isEmpty = true then mkWorkAtW lb ub ed.lbK ks s1 else none
              else mkWorkAtW lb .unbounded ed.lbK ks s1
            else some (.done [], s1)) with
            | none => lb.ex = true
            | some (.unwound _, _) => lb.Panics (toList (.mk es ks)) ∨ ub.Panics (toList (.mk es ks))
            | some (.done w1, _) =>
              if ed.lp && !kids.isEmpty then GoodW N w1 (below ks ed.lbK) else w1 = [] := by
          by_cases c1 : (ed.lp && !kids.isEmpty) = true
          · simp only [if_pos c1]
            by_cases c2 : (kids.length == 1 && ed.rp) = true
            · have : elems = [] := by
                simp only [Bool.and_eq_true, beq_iff_eq] at c1 c2
                exact g1 c1.1 c2.1 c2.2
              simp only [if_pos c2, this, List.isEmpty_nil, if_true]
              exact hat lb ub ed.lbK s1
            · simp only [if_neg c2]
              have := hat lb .unbounded ed.lbK s1
              rcases hm : mkWorkAtW lb .unbounded ed.lbK ks s1 with _ | ⟨u | w, s'⟩ <;> rw [hm] at this
              · exact this
              · exact .inl (this.resolve_right id)
              · exact this
          · simp only [if_neg c1]
        rcases hm1 : (if (ed.lp && !kids.isEmpty) = true then
              if (kids.length == 1 && ed.rp) = true then
                if elems.isEmpty = true then mkWorkAtW lb ub ed.lbK ks s1 else none
              else mkWorkAtW lb .unbounded ed.lbK ks s1
            else some (.done [], s1)) with _ | ⟨u | w1, s2⟩ <;> rw [hm1] at hw1 <;> simp only [hm1] at hw1 ⊢
        · exact hw1
        · exact hw1
        · generalize hkids1 : (if ed.lp = true then kids.tail else kids) = kids1 at g2 ⊢
          have hw2 : match (if (ed.rp && !kids1.isEmpty) = true then
                mkWorkAtW (if ed.lp = true then .unbounded else lb) ub (ed.ubK - 1) ks s2
              else some (.done [], s2)) with
              | none => lb.ex = true
              | some (.unwound _, _) => lb.Panics (toList (.mk es ks)) ∨ ub.Panics (toList (.mk es ks))
              | some (.done w2, _) =>
                if ed.rp && !kids1.isEmpty then GoodW N w2 (below ks (ed.ubK - 1)) else w2 = [] := by
            by_cases c1 : (ed.rp && !kids1.isEmpty) = true
            · simp only [if_pos c1]
              by_cases c2 : ed.lp = true
              · simp only [if_pos c2]
                have := hat .unbounded ub (ed.ubK - 1) s2
                rcases hm : mkWorkAtW .unbounded ub (ed.ubK - 1) ks s2 with _ | ⟨u | w, s'⟩ <;>
                  rw [hm] at this
                · cases this
                · exact .inr (this.resolve_left id)
                · exact this
              · simp only [if_neg c2]
                exact hat lb ub (ed.ubK - 1) s2
            · simp only [if_neg c1]
          rcases hm2 : (if (ed.rp && !kids1.isEmpty) = true then
                mkWorkAtW (if ed.lp = true then .unbounded else lb) ub (ed.ubK - 1) ks s2
              else some (.done [], s2)) with _ | ⟨u | w2, s3⟩ <;> rw [hm2] at hw2 <;>
            simp only [hm2] at hw2 ⊢
          · exact hw2
          · exact hw2
          · exact g2 w1 w2 hw1 hw2

theorem BTreeMap.rangeW_spec {m : BTreeMap K V} (hm : m.Inv N) (lt : σ → Option Bool × σ)
    (lb ub : WBnd σ K) (s : σ) :
    match m.rangeW lt lb ub s with
    | none => (∃ s, (lt s).1 = some true) ∨ lb.ex = true
    | some (.unwound _, _) => (∃ s, (lt s).1 = none) ∨ lb.Panics m.abs ∨ ub.Panics m.abs
    | some (.done it, _) => it.len = m.len ∧ GoodW N it.work m.abs := by
  rw [rangeW]
  have hlt : ∀ o s', (if (lb.given && ub.given) = true then lt s else (some false, s)) = (o, s') →
      o = some false ∨ (lt s).1 = o := by
    intro o s' h
    split at h
    · exact .inr (by rw [h])
    · cases h; exact .inl rfl
  rcases ho : (if (lb.given && ub.given) = true then lt s else (some false, s)) with ⟨_ | _ | _, s1⟩
  · exact .inl ⟨s, (hlt _ _ ho).resolve_left (by simp)⟩
  · simp only
    obtain ⟨len, _ | n⟩ := m
    · exact ⟨rfl, GoodW.nil N _⟩
    · obtain ⟨h, hn⟩ := hm.shape n rfl
      have := mkWorkW_spec h 1 n hn lb ub s1
      simp only
      rcases hw : mkWorkW lb ub n s1 with _ | ⟨u | w, s2⟩ <;> rw [hw] at this
      · exact .inr this
      · exact .inr this
      · exact ⟨rfl, this⟩
  · exact .inl ⟨s, (hlt _ _ ho).resolve_left (by simp)⟩

/-! ### Comparisons that keep to an order -/

/-- The comparison with the bound answers as the bound of the value model does, if it answers. -/
inductive WBnd.Honest : WBnd σ K → Bnd K → Prop
  | unbounded : WBnd.Honest .unbounded .unbounded
  | included {c p} : Wild.Honest c p → WBnd.Honest (.included c) (.included p)
  | excluded {c p} : Wild.Honest c p → WBnd.Honest (.excluded c) (.excluded p)

theorem cmpBdW_honest {b : WBnd σ K} {b' : Bnd K} (h : b.Honest b') {k : K} {s s' : σ} {o : BdOrd}
    (e : cmpBdW b k s = (some o, s')) : cmpBd b' k = o := by
  cases h with
  | unbounded => cases e; rfl
  | @included c p h =>
    rw [cmpBdW] at e
    rcases hc : c k s with ⟨_ | _ | _ | _, s2⟩ <;> rw [hc] at e <;> cases e <;>
      simp [cmpBd, h.of_eq hc]
  | @excluded c p h =>
    rw [cmpBdW] at e
    rcases hc : c k s with ⟨_ | _ | _ | _, s2⟩ <;> rw [hc] at e <;> cases e <;>
      simp [cmpBd, h.of_eq hc]

theorem findLW_honest {b : WBnd σ K} {b' : Bnd K} (h : b.Honest b') : ∀ (i : Nat) (es : List (K × V))
    (s s' : σ) r, findLW b i es s = (some r, s') → findL b' i es = r
  | i, [], s, s', r, e => by cases e; rfl
  | i, x :: es, s, s', r, e => by
    rw [findLW] at e
    rw [findL]
    have h1 := @cmpBdW_honest σ K b b' h x.1 s
    rcases hc : cmpBdW b x.1 s with ⟨_ | _ | _ | isIn | _, s2⟩ <;> rw [hc] at e h1 <;>
      simp only at e <;> first | (cases e; rw [h1 rfl]) | cases e | skip
    rw [h1 rfl]
    exact findLW_honest h _ _ _ _ _ e

theorem findRW_honest {b : WBnd σ K} {b' : Bnd K} (h : b.Honest b') (len : Nat) :
    ∀ (i : Nat) (es : List (K × V)) (s s' : σ) r, findRW len b i es s = (some r, s') →
    findR len b' i es = r
  | i, [], s, s', r, e => by cases e; rfl
  | i, x :: es, s, s', r, e => by
    rw [findRW] at e
    rw [findR]
    have h1 := @cmpBdW_honest σ K b b' h x.1 s
    rcases hc : cmpBdW b x.1 s with ⟨_ | _ | _ | isIn | _, s2⟩ <;> rw [hc] at e h1 <;>
      simp only at e <;> first | (cases e; rw [h1 rfl]) | cases e | skip
    rw [h1 rfl]
    exact findRW_honest h len _ _ _ _ _ e

theorem edgesW_honest {lb ub : WBnd σ K} {lb' ub' : Bnd K} (hl : lb.Honest lb') (hu : ub.Honest ub')
    {es : List (K × V)} {s s' : σ} {ed : Edges} (e : edgesW lb ub es s = (some ed, s')) :
    findRangeEdges lb' ub' es = ed := by
  rw [edgesW] at e
  rcases h1 : findLW lb 0 es s with ⟨_ | l, s1⟩ <;> rw [h1] at e <;> simp only at e
  · cases e
  · rcases h2 : findRW es.length ub l.2.1 l.2.2 s1 with ⟨_ | r, s2⟩ <;> rw [h2] at e <;> simp only at e
    · cases e
    · cases e
      rw [findRangeEdges, findLW_honest hl _ _ _ _ _ h1, findRW_honest hu _ _ _ _ _ _ h2]

mutual
theorem mkWorkW_honest : ∀ {lb ub : WBnd σ K} {lb' ub' : Bnd K}, lb.Honest lb' → ub.Honest ub' →
    ∀ (n : Node K V) (s : σ),
    match mkWorkW lb ub n s with
    | none => mkWork lb' ub' n = none
    | some (.unwound _, _) => True
    | some (.done w, _) => mkWork lb' ub' n = some w
  | lb, ub, lb', ub', hl, hu, .mk es ks, s => by
    have hat := fun {lb ub lb' ub'} hl hu i s => @mkWorkAtW_honest lb ub lb' ub' hl hu i ks s
    rw [mkWorkW, mkWork]
    have he := @edgesW_honest σ K V lb ub lb' ub' hl hu es s
    rcases hed : edgesW lb ub es s with ⟨_ | ed, s1⟩ <;> rw [hed] at he <;> simp only
    rw [he rfl]
    by_cases hb : ed.lbE ≤ ed.ubE ∧ ed.ubE ≤ es.length
    · simp only [if_pos hb]
      generalize getSlice ks ed.lbK ed.ubK = kids
      generalize (es.take ed.ubE).drop ed.lbE = elems
      have hw1 : match (if (ed.lp && !kids.isEmpty) = true then
              if (kids.length == 1 && ed.rp) = true then
                if elems.isEmpty = true then mkWorkAtW lb ub ed.lbK ks s1 else none
              else mkWorkAtW lb .unbounded ed.lbK ks s1
            else some (.done [], s1)) with
          | none => (if (ed.lp && !kids.isEmpty) = true then
              if (kids.length == 1 && ed.rp) = true then
                if elems.isEmpty = true then mkWorkAt lb' ub' ed.lbK ks else none
              else mkWorkAt lb' .unbounded ed.lbK ks
            else some []) = none
          | some (.unwound _, _) => True
          | some (.done w, _) => (if (ed.lp && !kids.isEmpty) = true then
              if (kids.length == 1 && ed.rp) = true then
                if elems.isEmpty = true then mkWorkAt lb' ub' ed.lbK ks else none
              else mkWorkAt lb' .unbounded ed.lbK ks
            else some []) = some w := by
        by_cases c1 : (ed.lp && !kids.isEmpty) = true
        · simp only [if_pos c1]
          by_cases c2 : (kids.length == 1 && ed.rp) = true
          · simp only [if_pos c2]
            by_cases c3 : elems.isEmpty = true
            · simp only [if_pos c3]; exact hat hl hu _ _
            · simp only [if_neg c3]
          · simp only [if_neg c2]; exact hat hl .unbounded _ _
        · simp only [if_neg c1]
      rcases hm1 : (if (ed.lp && !kids.isEmpty) = true then
              if (kids.length == 1 && ed.rp) = true then
                if elems.isEmpty = true then mkWorkAtW lb ub ed.lbK ks s1 else none
              else mkWorkAtW lb .unbounded ed.lbK ks s1
            else some (.done [], s1)) with _ | ⟨u | w1, s2⟩ <;> rw [hm1] at hw1 <;>
        simp only [hm1] at hw1 ⊢
      · rw [hw1]
      · rw [hw1]
        simp only
        generalize (if ed.lp = true then kids.tail else kids) = kids1
        have hlb2 : WBnd.Honest (if ed.lp = true then .unbounded else lb)
            (if ed.lp = true then .unbounded else lb') := by
          split
          · exact .unbounded
          · exact hl
        have hw2 : match (if (ed.rp && !kids1.isEmpty) = true then
              mkWorkAtW (if ed.lp = true then .unbounded else lb) ub (ed.ubK - 1) ks s2
            else some (.done [], s2)) with
            | none => (if (ed.rp && !kids1.isEmpty) = true then
                mkWorkAt (if ed.lp = true then .unbounded else lb') ub' (ed.ubK - 1) ks
              else some []) = none
            | some (.unwound _, _) => True
            | some (.done w, _) => (if (ed.rp && !kids1.isEmpty) = true then
                mkWorkAt (if ed.lp = true then .unbounded else lb') ub' (ed.ubK - 1) ks
              else some []) = some w := by
          by_cases c1 : (ed.rp && !kids1.isEmpty) = true
          · simp only [if_pos c1]; exact hat hlb2 hu _ _
          · simp only [if_neg c1]
        rcases hm2 : (if (ed.rp && !kids1.isEmpty) = true then
              mkWorkAtW (if ed.lp = true then .unbounded else lb) ub (ed.ubK - 1) ks s2
            else some (.done [], s2)) with _ | ⟨u | w2, s3⟩ <;> rw [hm2] at hw2 <;>
          simp only [hm2] at hw2 ⊢
        · rw [hw2]
        · rw [hw2]
    · simp only [if_neg hb]
theorem mkWorkAtW_honest : ∀ {lb ub : WBnd σ K} {lb' ub' : Bnd K}, lb.Honest lb' → ub.Honest ub' →
    ∀ (i : Nat) (ks : List (Node K V)) (s : σ),
    match mkWorkAtW lb ub i ks s with
    | none => mkWorkAt lb' ub' i ks = none
    | some (.unwound _, _) => True
    | some (.done w, _) => mkWorkAt lb' ub' i ks = some w
  | _, _, _, _, _, _, i, [], s => by simp [mkWorkAtW, mkWorkAt]
  | _, _, _, _, hl, hu, 0, c :: ks, s => by
    rw [mkWorkAtW, mkWorkAt]; exact mkWorkW_honest hl hu c s
  | _, _, _, _, hl, hu, i + 1, c :: ks, s => by
    rw [mkWorkAtW, mkWorkAt]; exact mkWorkAtW_honest hl hu i ks s
end

/-- The bound answers as the sought key does, if it answers. -/
def WBnd.Keeps {Q : Type} [Ord Q] (f : K → Q) (b : WBnd σ K) (q : QBnd Q) : Prop :=
  b.Honest (q.bnd f)

theorem BTreeMap.rangeW_honest {Q : Type} [Ord Q] {f : K → Q} {m : BTreeMap K V}
    {lt : σ → Option Bool × σ} {lb ub : WBnd σ K} {lb' ub' : QBnd Q} (hl : lb.Keeps f lb')
    (hu : ub.Keeps f ub') (hlt : ∀ s b s', lb.given = true → ub.given = true →
      lt s = (some b, s') → lb'.bad ub' = b) (s : σ) :
    match m.rangeW lt lb ub s with
    | none => m.range f lb' ub' = none
    | some (.unwound _, _) => True
    | some (.done it, _) => m.range f lb' ub' = some it := by
  rw [rangeW, range]
  have hb : ∀ o s', (if (lb.given && ub.given) = true then lt s else (some false, s)) = (some o, s') →
      lb'.bad ub' = o := by
    intro o s' h
    split at h
    · rename_i hg
      simp only [Bool.and_eq_true] at hg
      exact hlt _ _ _ hg.1 hg.2 h
    · rename_i hg
      cases h
      unfold WBnd.Keeps at hl hu
      cases lb' <;> cases hl <;> cases ub' <;> cases hu <;> simp_all [WBnd.given, QBnd.bad]
  rcases ho : (if (lb.given && ub.given) = true then lt s else (some false, s)) with ⟨_ | _ | _, s1⟩
  · trivial
  · rw [hb _ _ ho]
    simp only
    obtain ⟨len, _ | n⟩ := m
    · rfl
    · have := mkWorkW_honest hl hu n s1
      simp only
      rcases hw : mkWorkW lb ub n s1 with _ | ⟨u | w, s2⟩ <;> rw [hw] at this <;> simp only at this ⊢
      · simp [this]
      · simp [this]
  · rw [hb _ _ ho]; rfl

end Verif.BTree

namespace Verif.Avl
open Verif.Wild Tree
universe w
variable {σ : Type w} {K V : Type}

/-- One of the tests may panic on a key of the list. -/
def Tests.Panics (t : Tests σ K) (l : List (K × V)) : Prop :=
  ∃ e ∈ l, ∃ s, (t.ubLe e.1 s).1 = none ∨ (t.lbGe e.1 s).1 = none ∨ (t.holds e.1 s).1 = none

theorem askW_none {t : Tree K V} {c : K → σ → Option Bool × σ} {k : K} {s s' : σ}
    (h : askW t c k s = (none, s')) : (c k s).1 = none := by
  cases t with
  | nil => cases h
  | node => simp only [askW] at h; rw [h]

/-- What the loop needs of its body, `F` being the contents of a worklist. -/
def StepOk (t : Tests σ K) (F : List (Act K V) → List (K × V))
    (step : K → V → Tree K V → Tree K V → List (Act K V) → σ → Option (List (Act K V)) × σ) : Prop :=
  ∀ k v lh rh l r w s, (k, v) ∈ F (.desc (.node k v lh rh l r) :: w) ∧
    match step k v l r w s with
    | (none, _) => t.Panics [(k, v)]
    | (some w', _) => wsize w' ≤ 3 * size l + 3 * size r + 3 + wsize w ∧
        (F w').Sublist (F (.desc (.node k v lh rh l r) :: w))

theorem pushes_size (a b : Tree K V) (x : K × V) (b1 b2 b3 : Bool) (w : List (Act K V)) :
    wsize (if b3 = true then (if b2 = true then .ret x :: (if b1 = true then w else pushDesc a w)
        else (if b1 = true then w else pushDesc a w))
      else pushDesc b (if b2 = true then .ret x :: (if b1 = true then w else pushDesc a w)
        else (if b1 = true then w else pushDesc a w))) ≤ 3 * size b + 3 * size a + 3 + wsize w := by
  have h1 := wsize_pushDesc a w
  split
  · split
    · simp only [wsize]; split <;> omega
    · split <;> omega
  · refine Nat.le_trans (wsize_pushDesc _ _) ?_
    split
    · simp only [wsize]; split <;> omega
    · split <;> omega

theorem part_sub {α : Type} (b : Bool) (l : List α) : (if b = true then [] else l).Sublist l := by
  cases b
  · exact .refl _
  · exact List.nil_sublist _

theorem stepL_ok (t : Tests σ K) : StepOk (V := V) t items (pruneStepLW t) := by
  intro k v lh rh l r w s
  refine ⟨by simp [items, Act.items, toList], ?_⟩
  rw [pruneStepLW]
  rcases h1 : askW r t.ubLe k s with ⟨_ | b1, s1⟩ <;> simp only
  · exact ⟨_, List.mem_singleton.2 rfl, _, .inl (askW_none h1)⟩
  rcases h2 : t.holds k s1 with ⟨_ | b2, s2⟩ <;> simp only
  · exact ⟨_, List.mem_singleton.2 rfl, _, .inr (.inr (by rw [h2]))⟩
  rcases h3 : askW l t.lbGe k s2 with ⟨_ | b3, s3⟩ <;> simp only
  · exact ⟨_, List.mem_singleton.2 rfl, _, .inr (.inl (askW_none h3))⟩
  refine ⟨pushes_size r l (k, v) b1 b2 b3 w, ?_⟩
  have := (((part_sub b3 (toList l)).append (part_sub (!b2) [(k, v)])).append
    (part_sub b1 (toList r))).append (List.Sublist.refl (items w))
  cases b1 <;> cases b2 <;> cases b3 <;> simpa [Act.items, toList] using this

theorem stepR_ok (t : Tests σ K) : StepOk (V := V) t itemsRev (pruneStepRW t) := by
  intro k v lh rh l r w s
  refine ⟨by simp [Act.items, toList], ?_⟩
  rw [pruneStepRW]
  rcases h1 : askW l t.lbGe k s with ⟨_ | b1, s1⟩ <;> simp only
  · exact ⟨_, List.mem_singleton.2 rfl, _, .inr (.inl (askW_none h1))⟩
  rcases h2 : t.holds k s1 with ⟨_ | b2, s2⟩ <;> simp only
  · exact ⟨_, List.mem_singleton.2 rfl, _, .inr (.inr (by rw [h2]))⟩
  rcases h3 : askW r t.ubLe k s2 with ⟨_ | b3, s3⟩ <;> simp only
  · exact ⟨_, List.mem_singleton.2 rfl, _, .inl (askW_none h3)⟩
  refine ⟨Nat.le_trans (pushes_size l r (k, v) b1 b2 b3 w) (by omega), ?_⟩
  have := (List.Sublist.refl (itemsRev w)).append (((part_sub b1 (toList l)).append
    (part_sub (!b2) [(k, v)])).append (part_sub b3 (toList r)))
  cases b1 <;> cases b2 <;> cases b3 <;> simpa [Act.items, toList] using this

theorem pruneLoopW_spec {t : Tests σ K} {F : List (Act K V) → List (K × V)} {step}
    (hF : ∀ w, (F w).Sublist (F (.desc .nil :: w))) (hs : StepOk t F step) :
    ∀ (f : Nat) (w : List (Act K V)) (s : σ), wsize w < f →
    match pruneLoopW step f w s with
    | none => False
    | some (.unwound _, _) => t.Panics (F w)
    | some (.done w', _) => (F w').Sublist (F w) := by
  intro f
  induction f with
  | zero => intro w s h; omega
  | succ f ih =>
    intro w s h
    rcases w with _ | ⟨(_ | ⟨k, v, lh, rh, l, r⟩) | x, w⟩
    · exact List.Sublist.refl _
    · have := ih w s (by simp only [wsize] at h; omega)
      rw [pruneLoopW]
      rcases hr : pruneLoopW step f w s with _ | ⟨u | w', s'⟩ <;> rw [hr] at this
      · exact this
      · obtain ⟨e, he, h'⟩ := this
        exact ⟨e, (hF w).subset he, h'⟩
      · exact List.Sublist.trans this (hF w)
    · obtain ⟨hk, h1⟩ := hs k v lh rh l r w s
      rw [pruneLoopW]
      rcases hst : step k v l r w s with ⟨_ | w1, s1⟩ <;> rw [hst] at h1
      · obtain ⟨e, he, h'⟩ := h1
        cases List.mem_singleton.1 he
        exact ⟨_, hk, h'⟩
      · have := ih w1 s1 (by have := h1.1; simp only [wsize, size] at h; omega)
        simp only
        rcases hr : pruneLoopW step f w1 s1 with _ | ⟨u | w', s'⟩ <;> rw [hr] at this
        · exact this
        · obtain ⟨e, he, h'⟩ := this
          exact ⟨e, h1.2.subset he, h'⟩
        · exact List.Sublist.trans this h1.2
    · exact List.Sublist.refl _

theorem wsize_append (a b : List (Act K V)) : wsize (a ++ b) = wsize a + wsize b := by
  induction a with
  | nil => simp [wsize]
  | cons x a ih => cases x <;> simp only [List.cons_append, wsize, ih] <;> omega

theorem wsize_reverse (w : List (Act K V)) : wsize w.reverse = wsize w := by
  induction w with
  | nil => rfl
  | cons x a ih => cases x <;> simp only [List.reverse_cons, wsize_append, wsize, ih] <;> omega

theorem AvlMap.rangeW_spec (t : Tests σ K) (m : AvlMap K V) (s : σ) :
    match m.rangeW t s with
    | none => False
    | some (.unwound _, _) => t.Panics m.root.toList
    | some (.done it, _) => it.len = m.len ∧ (items it.work).Sublist m.root.toList := by
  rw [rangeW]
  have h1 := pruneLoopW_spec (F := items) (fun w => by simp [Act.items, toList]) (stepL_ok t)
    (wsize (pushDesc m.root []) + 1) (pushDesc m.root []) s (by omega)
  simp only [items_pushDesc, items_nil, List.append_nil] at h1
  rcases hr : pruneLoopW (pruneStepLW t) (wsize (pushDesc m.root []) + 1) (pushDesc m.root []) s
    with _ | ⟨u | w1, s1⟩ <;> rw [hr] at h1 <;> simp only at h1 ⊢
  · exact h1
  · have h2 := pruneLoopW_spec (F := itemsRev) (fun w => by simp [Act.items, toList]) (stepR_ok t)
      (wsize w1 + 1) w1.reverse s1 (by rw [wsize_reverse]; omega)
    have hrev : itemsRev w1.reverse = items w1 := by rw [itemsRev, List.reverse_reverse]
    rw [hrev] at h2
    rcases hr2 : pruneLoopW (pruneStepRW t) (wsize w1 + 1) w1.reverse s1 with _ | ⟨u | w2, s2⟩ <;>
      rw [hr2] at h2 <;> simp only at h2 ⊢
    · obtain ⟨e, he, h'⟩ := h2
      exact ⟨e, h1.subset he, h'⟩
    · exact ⟨trivial, List.Sublist.trans h2 h1⟩

/-! ### Tests that keep to an order -/

/-- The tests answer as the bounds of the value model do, if they answer. -/
structure Tests.Honest (t : Tests σ K) (lb ub : Bnd K) : Prop where
  hub : ∀ k s b s', t.ubLe k s = (some b, s') → Avl.ubLe ub k = b
  hlb : ∀ k s b s', t.lbGe k s = (some b, s') → Avl.lbGe lb k = b
  hin : ∀ k s b s', t.holds k s = (some b, s') → (lb.okLo k && ub.okHi k) = b

theorem askW_push {c : K → σ → Option Bool × σ} {p : Bool} {t : Tree K V} {k : K} {s s' : σ} {b : Bool}
    (hc : ∀ b s', c k s = (some b, s') → p = b) (h : askW t c k s = (some b, s'))
    (w : List (Act K V)) :
    (if b = true then w else pushDesc t w) = if p = true then w else pushDesc t w := by
  cases t with
  | nil => simp [pushDesc]
  | node => simp only [askW] at h; rw [hc _ _ h]

theorem stepL_honest {t : Tests σ K} {lb ub : Bnd K} (h : t.Honest lb ub) {k : K} {v : V}
    {l r : Tree K V} {w w' : List (Act K V)} {s s' : σ}
    (e : pruneStepLW t k v l r w s = (some w', s')) : w' = pruneStepL lb ub k v l r w := by
  rw [pruneStepLW] at e
  rcases h1 : askW r t.ubLe k s with ⟨_ | b1, s1⟩ <;> rw [h1] at e <;> simp only at e
  · cases e
  rcases h2 : t.holds k s1 with ⟨_ | b2, s2⟩ <;> rw [h2] at e <;> simp only at e
  · cases e
  rcases h3 : askW l t.lbGe k s2 with ⟨_ | b3, s3⟩ <;> rw [h3] at e <;> simp only at e
  · cases e
  cases e
  rw [pruneStepL, askW_push (fun _ _ h' => h.hub _ _ _ _ h') h1, h.hin _ _ _ _ h2]
  exact askW_push (fun _ _ h' => h.hlb _ _ _ _ h') h3 _

theorem stepR_honest {t : Tests σ K} {lb ub : Bnd K} (h : t.Honest lb ub) {k : K} {v : V}
    {l r : Tree K V} {w w' : List (Act K V)} {s s' : σ}
    (e : pruneStepRW t k v l r w s = (some w', s')) : w' = pruneStepR lb ub k v l r w := by
  rw [pruneStepRW] at e
  rcases h1 : askW l t.lbGe k s with ⟨_ | b1, s1⟩ <;> rw [h1] at e <;> simp only at e
  · cases e
  rcases h2 : t.holds k s1 with ⟨_ | b2, s2⟩ <;> rw [h2] at e <;> simp only at e
  · cases e
  rcases h3 : askW r t.ubLe k s2 with ⟨_ | b3, s3⟩ <;> rw [h3] at e <;> simp only at e
  · cases e
  cases e
  rw [pruneStepR, askW_push (fun _ _ h' => h.hlb _ _ _ _ h') h1, h.hin _ _ _ _ h2]
  exact askW_push (fun _ _ h' => h.hub _ _ _ _ h') h3 _

theorem pruneLW_honest {t : Tests σ K} {lb ub : Bnd K} (h : t.Honest lb ub) :
    ∀ (f : Nat) (w w' : List (Act K V)) (s s' : σ),
    pruneLoopW (pruneStepLW t) f w s = some (.done w', s') → w' = pruneL lb ub w := by
  intro f
  induction f with
  | zero => intro w w' s s' e; cases e
  | succ f ih =>
    intro w w' s s' e
    rcases w with _ | ⟨(_ | ⟨k, v, lh, rh, l, r⟩) | x, w⟩
    · cases e; simp [pruneL]
    · rw [pruneLoopW] at e; rw [pruneL]; exact ih _ _ _ _ e
    · rw [pruneLoopW] at e
      rw [pruneL]
      rcases hst : pruneStepLW t k v l r w s with ⟨_ | w1, s1⟩ <;> rw [hst] at e <;> simp only at e
      · cases e
      · rw [← stepL_honest h hst]; exact ih _ _ _ _ e
    · cases e; simp [pruneL]

theorem pruneRW_honest {t : Tests σ K} {lb ub : Bnd K} (h : t.Honest lb ub) :
    ∀ (f : Nat) (w w' : List (Act K V)) (s s' : σ),
    pruneLoopW (pruneStepRW t) f w s = some (.done w', s') → w' = pruneRrev lb ub w := by
  intro f
  induction f with
  | zero => intro w w' s s' e; cases e
  | succ f ih =>
    intro w w' s s' e
    rcases w with _ | ⟨(_ | ⟨k, v, lh, rh, l, r⟩) | x, w⟩
    · cases e; simp [pruneRrev]
    · rw [pruneLoopW] at e; rw [pruneRrev]; exact ih _ _ _ _ e
    · rw [pruneLoopW] at e
      rw [pruneRrev]
      rcases hst : pruneStepRW t k v l r w s with ⟨_ | w1, s1⟩ <;> rw [hst] at e <;> simp only at e
      · cases e
      · rw [← stepR_honest h hst]; exact ih _ _ _ _ e
    · cases e; simp [pruneRrev]

theorem AvlMap.rangeW_honest {t : Tests σ K} {lb ub : Bnd K} (h : t.Honest lb ub) {m : AvlMap K V}
    {s s' : σ} {it : Iter K V} (e : m.rangeW t s = some (.done it, s')) :
    it = rangeOf lb ub m.len m.root := by
  rw [rangeW] at e
  simp only at e
  rcases hr : pruneLoopW (pruneStepLW t) (wsize (pushDesc m.root []) + 1) (pushDesc m.root []) s
    with _ | ⟨u | w1, s1⟩ <;> rw [hr] at e <;> simp only at e
  · cases e
  · cases e
  · rcases hr2 : pruneLoopW (pruneStepRW t) (wsize w1 + 1) w1.reverse s1 with _ | ⟨u | w2, s2⟩ <;>
      rw [hr2] at e <;> simp only at e
    · cases e
    · cases e
    · cases e
      rw [rangeOf, pruneRW_honest h _ _ _ _ _ hr2, pruneLW_honest h _ _ _ _ _ hr]

end Verif.Avl
