import Verif.Avl.Contents
/-! Retain, ends, in-place mutation, the checker. -/
set_option linter.unusedSectionVars false
namespace Verif

theorem Spec.calls_append {σ K V : Type _} (f : σ → K → V → σ × V × Bool) (s : σ)
    (a b : List (K × V)) :
    Spec.calls f s (a ++ b) =
      ((Spec.calls f (Spec.calls f s a).1 b).1,
        (Spec.calls f s a).2 ++ (Spec.calls f (Spec.calls f s a).1 b).2) := by
  induction a generalizing s with
  | nil => rfl
  | cons e a ih =>
    simp only [List.cons_append, Spec.calls, ih]
    split <;> simp

/-- Sortedness depends on the keys only. -/
theorem sorted_iff_keys {K V : Type _} [Ord K] {l : List (K × V)} :
    Sorted l ↔ (l.map (·.1)).Pairwise (fun a b => compare a b = .lt) := by
  simp [Sorted, List.pairwise_map]

/-- A list of entries whose keys form a subsequence of the keys of a sorted list is sorted. -/
theorem Sorted.of_keys_sublist {K V W : Type _} [Ord K] {l : List (K × V)} {l' : List (K × W)}
    (h : Sorted l) (hs : (l'.map (·.1)).Sublist (l.map (·.1))) : Sorted l' :=
  sorted_iff_keys.2 ((sorted_iff_keys.1 h).sublist hs)

namespace Avl
open Std
namespace Tree
variable {K V : Type _}

/-- `retain` calls the closure exactly once per entry, in *some* order, and keeps exactly
the entries it accepted, with the values it left. -/
theorem retain_calls {σ : Type _} (f : σ → K → V → σ × V × Bool) :
    ∀ {s s' : σ} {t t' : Tree K V} {n : Nat},
    retain (fun s k v => some (f s k v)) s t = some (s', t', n) →
    ∃ order : List (K × V), order.Perm (toList t) ∧
      s' = (Spec.calls f s order).1 ∧
      (toList t').Perm (Spec.calls f s order).2 ∧
      ((toList t').map (·.1)).Sublist ((toList t).map (·.1)) ∧
      n = (toList t').length
  | s, s', nil, t', n, h => by
    simp only [retain, Option.some.injEq, Prod.mk.injEq] at h
    obtain ⟨rfl, rfl, rfl⟩ := h
    exact ⟨[], by simp, rfl, by simp [Spec.calls], by simp, rfl⟩
  | s, s', node k v lh rh l r, t', n, h => by
    unfold retain at h
    split at h
    · simp at h
    · rename_i s1 l' nl e1
      split at h
      · simp at h
      · rename_i s2 r' nr e2
        obtain ⟨o1, p1, q1, c1, m1, n1⟩ := retain_calls f e1
        obtain ⟨o2, p2, q2, c2, m2, n2⟩ := retain_calls f e2
        have hperm : (o1 ++ o2 ++ [(k, v)]).Perm (toList l ++ (k, v) :: toList r) := by
          refine ((p1.append p2).append_right _).trans ?_
          rw [List.append_assoc]
          exact List.Perm.append_left _ (List.perm_append_singleton _ _)
        have hcalls := Spec.calls_append f s (o1 ++ o2) [(k, v)]
        have hcalls2 := Spec.calls_append f s o1 o2
        rw [← q1, ← q2] at hcalls2
        rw [hcalls2] at hcalls
        simp only [Spec.calls] at hcalls
        rcases hf : f s2 k v with ⟨s3, v', b⟩
        simp only [hf] at h hcalls
        cases b
        · simp only [Option.map_eq_some_iff, Prod.mk.injEq] at h
          obtain ⟨x, ex, rfl, rfl, rfl⟩ := h
          have ht := join2_toList ex
          simp only [Option.toList_none, List.append_nil] at ht
          refine ⟨o1 ++ o2 ++ [(k, v)], hperm, by rw [hcalls], ?_, ?_, ?_⟩
          · rw [hcalls, ht]; simpa using c1.append c2
          · rw [ht]; simp only [toList, List.map_append, List.map_cons]
            exact m1.append (m2.trans (List.sublist_cons_self _ _))
          · rw [ht]; simp [n1, n2]
        · simp only [Option.map_eq_some_iff, Prod.mk.injEq] at h
          obtain ⟨x, ex, rfl, rfl, rfl⟩ := h
          have ht := join_toList ex
          refine ⟨o1 ++ o2 ++ [(k, v)], hperm, by rw [hcalls], ?_, ?_, ?_⟩
          · rw [hcalls, ht]
            have : (toList l' ++ (k, v') :: toList r').Perm (toList l' ++ toList r' ++ [(k, v')]) := by
              rw [List.append_assoc]
              exact List.Perm.append_left _ (List.perm_append_singleton _ _).symm
            refine this.trans ?_
            simpa using (c1.append c2).append_right [(k, v')]
          · rw [ht]; simp only [toList, List.map_append, List.map_cons]
            exact m1.append (m2.cons_cons _)
          · rw [ht]; simp [n1, n2]; omega

theorem first_toList : ∀ t : Tree K V, first t = (toList t).head?
  | nil => rfl
  | node k v _ _ nil r => by simp [first, toList]
  | node k v _ _ (node lk lv llh lrh ll lr) r => by
    rw [first, first_toList (node lk lv llh lrh ll lr)]
    simp only [toList]
    cases toList ll <;> simp

theorem last_toList : ∀ t : Tree K V, last t = (toList t).getLast?
  | nil => rfl
  | node k v _ _ l nil => by simp [last, toList]
  | node k v _ _ l (node lk lv llh lrh ll lr) => by
    rw [last, last_toList (node lk lv llh lrh ll lr)]
    simp only [toList]
    have hne : ll.toList ++ (lk, lv) :: lr.toList ≠ [] := by simp
    generalize ll.toList ++ (lk, lv) :: lr.toList = m at hne
    rw [List.getLast?_append, List.getLast?_cons]
    cases m with
    | nil => simp at hne
    | cons a m => simp [List.getLast?_cons]

theorem forEach_toList {σ : Type _} (f : σ → K → V → σ) : ∀ (s : σ) (t : Tree K V),
    forEach f s t = (toList t).foldl (fun s e => f s e.1 e.2) s
  | s, nil => rfl
  | s, node k v _ _ l r => by
    simp [forEach, toList, forEach_toList f _ l, forEach_toList f _ r]

/-- Replacing values in ascending order. -/
def mapCalls {σ : Type _} (f : σ → K → V → σ × V) : σ → List (K × V) → σ × List (K × V)
  | s, [] => (s, [])
  | s, e :: es =>
    let x := f s e.1 e.2
    let y := mapCalls f x.1 es
    (y.1, (e.1, x.2) :: y.2)

theorem mapCalls_append {σ : Type _} (f : σ → K → V → σ × V) (s : σ) (a b : List (K × V)) :
    mapCalls f s (a ++ b) = ((mapCalls f (mapCalls f s a).1 b).1,
      (mapCalls f s a).2 ++ (mapCalls f (mapCalls f s a).1 b).2) := by
  induction a generalizing s with
  | nil => rfl
  | cons e a ih => simp [mapCalls, ih]

theorem forEachMut_toList {σ : Type _} (f : σ → K → V → σ × V) : ∀ (s : σ) (t : Tree K V),
    ((forEachMut f s t).1, toList (forEachMut f s t).2) = mapCalls f s (toList t)
  | s, nil => rfl
  | s, node k v lh rh l r => by
    have h1 := forEachMut_toList f s l
    have h2 := forEachMut_toList f (f (forEachMut f s l).1 k v).1 r
    simp only [forEachMut, toList, mapCalls_append, mapCalls, ← h1, ← h2]

theorem forEachMut_shape {σ : Type _} (f : σ → K → V → σ × V) : ∀ (s : σ) (t : Tree K V),
    height (forEachMut f s t).2 = height t ∧ (Bal t → Bal (forEachMut f s t).2)
  | s, nil => ⟨rfl, id⟩
  | s, node k v lh rh l r => by
    have h1 := forEachMut_shape f s l
    have h2 := forEachMut_shape f (f (forEachMut f s l).1 k v).1 r
    refine ⟨rfl, ?_⟩
    rintro ⟨a1, a2, a3, a4, a5, a6⟩
    exact ⟨by rw [h1.1]; exact a1, by rw [h2.1]; exact a2, a3, a4, h1.2 a5, h2.2 a6⟩

theorem mapCalls_keys {σ : Type _} (f : σ → K → V → σ × V) (s : σ) (l : List (K × V)) :
    (mapCalls f s l).2.map (·.1) = l.map (·.1) := by
  induction l generalizing s with
  | nil => rfl
  | cons e l ih => simp [mapCalls, ih]

theorem getMutWith_shape (p : K → Ordering) (g : V → V) : ∀ t : Tree K V,
    height (getMutWith p g t).1 = height t ∧ (Bal t → Bal (getMutWith p g t).1)
  | nil => ⟨rfl, id⟩
  | node k v lh rh l r => by
    have h1 := getMutWith_shape p g l
    have h2 := getMutWith_shape p g r
    unfold getMutWith
    split
    · refine ⟨rfl, ?_⟩
      rintro ⟨a1, a2, a3, a4, a5, a6⟩
      exact ⟨by rw [h1.1]; exact a1, a2, a3, a4, h1.2 a5, a6⟩
    · exact ⟨rfl, id⟩
    · refine ⟨rfl, ?_⟩
      rintro ⟨a1, a2, a3, a4, a5, a6⟩
      exact ⟨a1, by rw [h2.1]; exact a2, a3, a4, a5, h2.2 a6⟩

variable [Ord K] [TransOrd K]

/-- Writing through `get_mut` changes the value of the matching entry and nothing else. -/
theorem getMutWith_toList {p : K → Ordering} (hp : IsProbe p) (g : V → V) : ∀ {t : Tree K V},
    Sorted (toList t) →
    toList (getMutWith p g t).1 =
      (toList t).map (fun e => if p e.1 = .eq then (e.1, g e.2) else e) ∧
    (getMutWith p g t).2 = (Spec.find p (toList t)).isSome
  | nil, _ => ⟨rfl, rfl⟩
  | node k v lh rh l r, hs => by
    simp only [toList] at hs
    obtain ⟨hl, hr, -, -⟩ := sorted_mid.1 hs
    have idLt : ∀ m : List (K × V), AllLt p m →
        m.map (fun e => if p e.1 = .eq then (e.1, g e.2) else e) = m := by
      intro m hm
      rw [List.map_congr_left (g := id) (fun e he => by simp [hm e he])]; simp
    have idGt : ∀ m : List (K × V), AllGt p m →
        m.map (fun e => if p e.1 = .eq then (e.1, g e.2) else e) = m := by
      intro m hm
      rw [List.map_congr_left (g := id) (fun e he => by simp [hm e he])]; simp
    unfold getMutWith
    simp only [toList]
    split
    · next hc =>
      have h1 := allLt_of_lt hp hs hc
      have ih := getMutWith_toList hp g hl
      have e2 := find_ctx (pre := []) (c := toList l) (by simp) h1
      simp only [List.nil_append] at e2
      rw [e2, List.map_append, idLt _ h1]
      simp only [toList]
      exact ⟨by rw [ih.1], ih.2⟩
    · next hc =>
      have h1 := allLt_of_eq hp hs hc
      have h2 := allGt_of_eq hp hs hc
      have e2 := find_ctx (c := [(k, v)]) h2 h1
      simp only [List.append_assoc, List.cons_append, List.nil_append] at e2
      rw [e2, List.map_append, List.map_cons, idLt _ h1, idGt _ h2]
      simp [toList, hc, Spec.find]
    · next hc =>
      have h1 := allGt_of_gt hp hs hc
      have ih := getMutWith_toList hp g hr
      have e2 := find_ctx (post := []) (c := toList r) h1 (by simp)
      simp only [List.append_nil, List.append_assoc, List.cons_append, List.nil_append] at e2
      rw [e2]
      have : toList l ++ (k, v) :: toList r = (toList l ++ [(k, v)]) ++ toList r := by simp
      rw [this, List.map_append, idGt _ h1, ← ih.1]
      simp only [toList]
      exact ⟨by simp, ih.2⟩

/-- All keys of `l` are above the optional bound `g`. -/
def Above (g : Option K) (l : List (K × V)) : Prop :=
  ∀ x, g = some x → ∀ e ∈ l, compare x e.1 = .lt

theorem all_lt_of_last {l : List (K × V)} (hs : Sorted l) {k : K}
    (h : ∀ e, l.getLast? = some e → compare e.1 k = .lt) : ∀ a ∈ l, compare a.1 k = .lt := by
  intro a ha
  have hne : l ≠ [] := List.ne_nil_of_mem ha
  have hl := h _ (List.getLast?_eq_some_getLast hne)
  generalize hx : l.getLast hne = x at hl
  have hdl : l = l.dropLast ++ [x] := by rw [← hx]; exact (List.dropLast_concat_getLast hne).symm
  rw [hdl] at ha hs
  rcases List.mem_append.1 ha with h1 | h1
  · exact cmp_lt_trans ((sorted_append.1 hs).2.2 a h1 _ (by simp)) hl
  · simp at h1; rw [h1]; exact hl

/-- The checker accepts exactly the balanced, strictly sorted trees (above `g`), and
returns their size and greatest key. -/
theorem chk_iff : ∀ {t : Tree K V} {g g' : Option K} {n : Nat},
    chk t g = some (n, g') ↔
      Bal t ∧ Sorted (toList t) ∧ Above g (toList t) ∧ n = (toList t).length ∧
        g' = ((toList t).getLast?.map (·.1)).or g := by
  intro t
  induction t with
  | nil =>
    intro g g' n
    simp [chk, Above, Sorted, eq_comm]
  | node k v lh rh l r ihl ihr =>
    intro g g' n
    have hany : ∀ (g : Option K), (g.any (fun x => compare x k != .lt)) = true ↔
        ¬ ∀ x, g = some x → compare x k = .lt := by
      intro g; cases g <;> simp
    have hgl : ((toList (node k v lh rh l r)).getLast?.map (·.1)).or g =
        ((toList r).getLast?.map (·.1)).or (some k) := by
      simp only [toList, List.getLast?_append, List.getLast?_cons]
      cases r.toList.getLast? <;> simp
    rw [hgl]
    unfold chk
    constructor
    · intro h
      split at h
      · simp at h
      · next c1 =>
        split at h
        · simp at h
        · next c2 =>
          split at h
          · simp at h
          · next c3 =>
            split at h
            · simp at h
            · next nl g1 e1 =>
              split at h
              · simp at h
              · next c4 =>
                split at h
                · simp at h
                · next nr g2 e2 =>
                  obtain ⟨bl, sl, al, nl', gl⟩ := ihl.1 e1
                  obtain ⟨br, sr, ar, nr', gr⟩ := ihr.1 e2
                  simp only [Option.some.injEq, Prod.mk.injEq] at h
                  simp only [hany, Decidable.not_not] at c1 c4
                  simp only [Bool.not_eq_true', Bool.not_eq_false, isBal_iff] at c3
                  simp only [Bool.or_eq_true, bne_iff_ne, not_or, Decidable.not_not] at c2
                  have hl : ∀ a ∈ toList l, compare a.1 k = .lt := by
                    apply all_lt_of_last sl
                    intro e he
                    exact c4 e.1 (by rw [gl, he]; rfl)
                  have hr := ar k rfl
                  refine ⟨⟨c2.1.symm, c2.2.symm, c3.1, c3.2, bl, br⟩,
                    sorted_mid.2 ⟨sl, sr, hl, hr⟩, ?_, ?_, ?_⟩
                  · intro x hx e he
                    simp only [toList, List.mem_append, List.mem_cons] at he
                    rcases he with he | rfl | he
                    · exact al x hx e he
                    · exact c1 x hx
                    · exact cmp_lt_trans (c1 x hx) (hr e he)
                  · simp only [toList, List.length_append, List.length_cons]; omega
                  · rw [← h.2, gr]
    · rintro ⟨⟨h1, h2, h3, h4, bl, br⟩, hs, ha, hn, hg⟩
      simp only [toList] at hs
      obtain ⟨sl, sr, hl, hr⟩ := sorted_mid.1 hs
      have c1 : ∀ x, g = some x → compare x k = .lt :=
        fun x hx => ha x hx (k, v) (by simp [toList])
      rw [if_neg (by rw [hany]; exact not_not_intro c1), if_neg (by simp [h1, h2]),
        if_neg (by simp [isBal_iff, h3, h4])]
      have e1 := (ihl (g := g) (n := (toList l).length)
        (g' := ((toList l).getLast?.map (·.1)).or g)).2
        ⟨bl, sl, fun x hx e he => ha x hx e (by simp [toList, he]), rfl, rfl⟩
      have e2 := (ihr (g := some k) (n := (toList r).length)
        (g' := ((toList r).getLast?.map (·.1)).or (some k))).2
        ⟨br, sr, fun x hx e he => by simp at hx; subst hx; exact hr e he, rfl, rfl⟩
      simp only [e1, e2]
      rw [if_neg]
      · rw [hg, hn]; simp only [toList, List.length_append, List.length_cons]; simp; omega
      · rw [hany]; apply not_not_intro
        intro x hx
        cases hgl : (toList l).getLast? with
        | none => simp [hgl] at hx; exact c1 x hx
        | some e =>
          simp [hgl] at hx; subst hx
          exact hl e (List.mem_of_getLast? hgl)

end Tree
end Avl
end Verif
