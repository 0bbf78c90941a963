import Verif.Avl.Set
/-!
# Correctness of `AvlSet::is_subset` (avl_set.rs:102-186)

`Arc::ptr_eq` is an arbitrary sequence of answers, only required to be sound: it answers `true`
only for equal subtrees.
-/
set_option linter.unusedSectionVars false
namespace Verif.Avl.AvlSet
open Std Tree
variable {T : Type} [Ord T] [TransOrd T]

/-- What is still ahead of an entry of the stack. -/
def ahead : Tree T Unit × Bool → List (T × Unit)
  | (.nil, _) => []
  | (.node k v _ _ l r, done) => (if done then [] else l.toList) ++ (k, v) :: r.toList

/-- What is still ahead of the whole stack. -/
def aheads (w : List (Tree T Unit × Bool)) : List (T × Unit) := w.flatMap ahead

/-- No empty nodes; an entry whose left side is not done has one. -/
def EntryOk : Tree T Unit × Bool → Prop
  | (.nil, _) => False
  | (.node _ _ _ _ l _, done) => done = false → l ≠ .nil

/-- A bound on the loop iterations left. -/
def mu : Tree T Unit × Bool → Nat
  | (.nil, _) => 0
  | (.node _ _ _ _ l r, done) => (if done then 1 else 2 + 2 * l.size) + 2 * r.size

def mus (w : List (Tree T Unit × Bool)) : Nat := (w.map mu).sum

@[simp] theorem aheads_cons (e : Tree T Unit × Bool) (w) : aheads (e :: w) = ahead e ++ aheads w := by
  simp [aheads]
@[simp] theorem mus_cons (e : Tree T Unit × Bool) (w) : mus (e :: w) = mu e + mus w := by
  simp [mus]

theorem ahead_node (k : T) (v lh rh l r done) : ahead (.node k v lh rh l r, done) =
    (if done then [] else l.toList) ++ (k, v) :: r.toList := rfl
theorem mu_node (k : T) (v lh rh l r done) : mu (.node k v lh rh l r, done) =
    (if done then 1 else 2 + 2 * l.size) + 2 * r.size := rfl

theorem entryOk_noLeft {t : Tree T Unit} (h : t ≠ .nil) : EntryOk (t, noLeft t) := by
  cases t with
  | nil => exact absurd rfl h
  | node k v lh rh l r =>
    cases l with
    | nil => simp [EntryOk, noLeft]
    | node => simp [EntryOk]

theorem ahead_noLeft (t : Tree T Unit) : ahead (t, noLeft t) = t.toList := by
  cases t with
  | nil => rfl
  | node k v lh rh l r => cases l <;> simp [ahead, noLeft, toList]

theorem mu_noLeft (t : Tree T Unit) : mu (t, noLeft t) ≤ 2 * t.size := by
  cases t with
  | nil => simp [mu]
  | node k v lh rh l r => cases l <;> simp [mu, noLeft, size] <;> omega

theorem pushRt_ahead (r : Tree T Unit) (w) : aheads (pushRt r w) = r.toList ++ aheads w := by
  cases r with
  | nil => rfl
  | node => simp only [pushRt, aheads_cons, ahead_noLeft]

theorem pushRt_ok (r : Tree T Unit) {w} (h : ∀ e ∈ w, EntryOk e) : ∀ e ∈ pushRt r w, EntryOk e := by
  cases r with
  | nil => exact h
  | node =>
    intro e he
    rcases List.mem_cons.1 he with rfl | he
    · exact entryOk_noLeft (by simp)
    · exact h e he

theorem pushRt_mu (r : Tree T Unit) (w) : mus (pushRt r w) ≤ 2 * r.size + mus w := by
  cases r with
  | nil => simp [pushRt]
  | node k v lh rh l r =>
    simp only [pushRt, mus_cons]
    have := mu_noLeft (Tree.node k v lh rh l r)
    omega

/-- What the search for `key` achieves. -/
def SeekSpec (lhs : Tree T Unit) (key : T) (w : List (Tree T Unit × Bool)) :
    Seek (List (Tree T Unit × Bool)) → Prop
  | .fail => ∀ e ∈ aheads w, compare key e.1 ≠ .eq
  | .found w' => (∃ e ∈ aheads w, compare key e.1 = .eq) ∧ (∀ e ∈ w', EntryOk e) ∧
      aheads w' <:+ aheads w ∧ mus w' ≤ mus w ∧
      ∀ e ∈ aheads w, compare key e.1 = .lt → e ∈ aheads w'
  | .same w' => (∀ k v lh rh l r, lhs = .node k v lh rh l r →
        (k, v) ∈ aheads w ∧ ∀ e ∈ r.toList, e ∈ aheads w) ∧ (∀ e ∈ w', EntryOk e) ∧
      aheads w' <:+ aheads w ∧ mus w' ≤ mus w ∧
      ∀ e ∈ aheads w, (∀ x ∈ lhs.toList, compare x.1 e.1 = .lt) → e ∈ aheads w'

theorem seek_spec {ptrEq : Nat → Tree T Unit → Tree T Unit → Bool}
    (hp : ∀ n a b, ptrEq n a b = true → a = b) (lhs : Tree T Unit) (key : T)
    (hkey0 : ∃ x ∈ lhs.toList, x.1 = key) :
    ∀ (fuel n : Nat) (w : List (Tree T Unit × Bool)), (∀ e ∈ w, EntryOk e) → Sorted (aheads w) →
    mus w < fuel → ∃ n' r, seek ptrEq lhs key fuel n w = some (n', r) ∧ SeekSpec lhs key w r := by
  intro fuel
  induction fuel with
  | zero => intro n w _ _ h; omega
  | succ fuel ih =>
    intro n w hok hs hf
    cases w with
    | nil => exact ⟨n, .fail, rfl, by simp [SeekSpec, aheads]⟩
    | cons e w =>
      obtain ⟨rhs, done⟩ := e
      have hok1 := hok _ List.mem_cons_self
      have hokw : ∀ e ∈ w, EntryOk e := fun e he => hok e (List.mem_cons_of_mem _ he)
      cases rhs with
      | nil => exact absurd hok1 (by simp [EntryOk])
      | node k v lh rh l r =>
        by_cases hpe : ptrEq n lhs (.node k v lh rh l r) = true
        · have hl := hp _ _ _ hpe
          refine ⟨n + 1, .same w, by simp [seek, hpe], ?_⟩
          refine ⟨?_, hokw, ⟨ahead (.node k v lh rh l r, done), by simp⟩, by simp, ?_⟩
          · intro k' v' lh' rh' l' r' e
            rw [hl] at e
            simp only [Tree.node.injEq] at e
            obtain ⟨rfl, -, -, -, -, rfl⟩ := e
            simp only [aheads_cons, ahead]
            exact ⟨by simp, fun e he => by simp [he]⟩
          · intro e he hx
            rw [aheads_cons, List.mem_append] at he
            rcases he with he | he
            · exfalso
              have hmem : e ∈ lhs.toList := by
                rw [hl]
                cases done
                · simpa [ahead, toList] using he
                · simp only [ahead, if_true, List.nil_append, List.mem_cons] at he
                  simp only [toList, List.mem_append, List.mem_cons]
                  exact Or.inr he
              have := hx e hmem
              simp at this
            · exact he
        · simp only [aheads_cons, ahead, List.append_assoc, List.cons_append] at hs
          have hs1 : Sorted ((k, v) :: (r.toList ++ aheads w)) := by
            exact hs.sublist (List.sublist_append_right _ _)
          have hlt := (sorted_cons.1 hs1).1
          simp only [seek, hpe, Bool.false_eq_true, if_false]
          cases hc : compare key k with
          | lt =>
            cases done with
            | true =>
              refine ⟨n + 1, .fail, rfl, ?_⟩
              intro e he
              simp only [aheads_cons, ahead, if_true, List.nil_append, List.cons_append,
                List.mem_cons] at he
              rcases he with rfl | he
              · simp [hc]
              · simp [cmp_lt_trans hc (hlt e he)]
            | false =>
              have hl : l ≠ .nil := hok1 rfl
              obtain ⟨n', res, e, hres⟩ := ih (n + 1)
                ((l, noLeft l) :: (.node k v lh rh l r, true) :: w) (by
                  intro e he
                  simp only [List.mem_cons] at he
                  rcases he with rfl | rfl | he
                  · exact entryOk_noLeft hl
                  · simp [EntryOk]
                  · exact hokw e he) (by
                  simp only [aheads_cons, ahead_noLeft, ahead_node]
                  simpa using hs) (by
                  have := mu_noLeft l
                  simp only [mus_cons, mu_node, if_true, Bool.false_eq_true, if_false] at hf ⊢
                  omega)
              have ea : aheads ((l, noLeft l) :: (.node k v lh rh l r, true) :: w) =
                  aheads ((.node k v lh rh l r, false) :: w) := by
                simp [ahead_noLeft, ahead_node]
              have em : mus ((l, noLeft l) :: (.node k v lh rh l r, true) :: w) ≤
                  mus ((.node k v lh rh l r, false) :: w) := by
                have := mu_noLeft l
                simp only [mus_cons, mu_node, if_true, Bool.false_eq_true, if_false]
                omega
              refine ⟨n', res, ?_, ?_⟩
              · cases l with
                | nil => exact absurd rfl hl
                | node => simpa using e
              · cases res with
                | fail => simpa only [SeekSpec, ea] using hres
                | found w' =>
                  simp only [SeekSpec, ea] at hres ⊢
                  obtain ⟨a1, a2, a3, a4, a5⟩ := hres
                  exact ⟨a1, a2, a3, Nat.le_trans a4 em, a5⟩
                | same w' =>
                  simp only [SeekSpec, ea] at hres ⊢
                  obtain ⟨a1, a2, a3, a4, a5⟩ := hres
                  exact ⟨a1, a2, a3, Nat.le_trans a4 em, a5⟩
          | eq =>
            refine ⟨n + 1, .found (pushRt r w), rfl, ⟨(k, v), by simp [ahead], hc⟩,
              pushRt_ok r hokw, ?_, ?_, ?_⟩
            · refine ⟨(if done then [] else l.toList) ++ [(k, v)], ?_⟩
              simp [pushRt_ahead, ahead]
            · have := pushRt_mu r w
              simp only [mus_cons, mu_node]; split <;> omega
            · intro e he hx
              simp only [pushRt_ahead, List.mem_append]
              simp only [aheads_cons, ahead, List.mem_append, List.mem_cons] at he
              rcases he with (he | rfl | he) | he
              · exfalso
                cases done with
                | true => simp at he
                | false =>
                  simp only [Bool.false_eq_true, if_false] at he hs
                  have h2 := (sorted_mid.1 hs)
                  have h3 : compare e.1 k = .lt := (List.pairwise_append.1 hs).2.2 e he (k, v) (by simp)
                  have h4 := cmp_congr_left (c := e.1) hc
                  rw [hx] at h4
                  have := cmp_lt_trans h4.symm h3
                  simp at this
              · rw [hc] at hx; simp at hx
              · exact Or.inl he
              · exact Or.inr he
          | gt =>
            obtain ⟨n', res, e, hres⟩ := ih (n + 1) (pushRt r w) (pushRt_ok r hokw) (by
                rw [pushRt_ahead]; exact (sorted_cons.1 hs1).2) (by
                have := pushRt_mu r w
                simp only [mus_cons, mu_node] at hf
                split at hf <;> omega)
            have hsuf : aheads (pushRt r w) <:+ aheads ((.node k v lh rh l r, done) :: w) :=
              ⟨(if done then [] else l.toList) ++ [(k, v)], by simp [pushRt_ahead, ahead]⟩
            have hmu : mus (pushRt r w) ≤ mus ((.node k v lh rh l r, done) :: w) := by
              have := pushRt_mu r w
              simp only [mus_cons, mu_node]; split <;> omega
            have hkey : ∀ e ∈ aheads ((Tree.node k v lh rh l r, done) :: w),
                e ∈ aheads (pushRt r w) ∨ compare key e.1 = .gt := by
              intro e he
              simp only [pushRt_ahead, List.mem_append]
              simp only [aheads_cons, ahead, List.mem_append, List.mem_cons] at he
              rcases he with (he | rfl | he) | he
              · right
                cases done with
                | true => simp at he
                | false =>
                  simp only [Bool.false_eq_true, if_false] at he hs
                  have h3 : compare e.1 k = .lt := (List.pairwise_append.1 hs).2.2 e he (k, v) (by simp)
                  rw [cmp_gt_iff_lt] at hc ⊢
                  exact cmp_lt_trans h3 hc
              · exact Or.inr hc
              · exact Or.inl (Or.inl he)
              · exact Or.inl (Or.inr he)
            refine ⟨n', res, by simpa using e, ?_⟩
            cases res with
            | fail =>
              intro e he
              rcases hkey e he with h | h
              · exact hres e h
              · simp [h]
            | found w' =>
              obtain ⟨⟨x, a0, a1⟩, a2, a3, a4, a5⟩ := hres
              refine ⟨⟨x, hsuf.mem a0, a1⟩, a2, a3.trans hsuf, Nat.le_trans a4 hmu, ?_⟩
              intro e he hx
              rcases hkey e he with h | h
              · exact a5 e h hx
              · rw [h] at hx; simp at hx
            | same w' =>
              obtain ⟨a1, a2, a3, a4, a5⟩ := hres
              refine ⟨?_, a2, a3.trans hsuf, Nat.le_trans a4 hmu, ?_⟩
              · intro k' v' lh' rh' l' r' e
                obtain ⟨b1, b2⟩ := a1 _ _ _ _ _ _ e
                exact ⟨hsuf.mem b1, fun e he => hsuf.mem (b2 e he)⟩
              · intro e he hx
                rcases hkey e he with h | h
                · exact a5 e h hx
                · exfalso
                  obtain ⟨x, hx1, rfl⟩ := hkey0
                  rw [hx x hx1] at h; simp at h

/-- `has_all`: true iff every element of `lhs` is ahead; then everything above `lhs` is still
ahead. -/
theorem hasAll_spec {ptrEq : Nat → Tree T Unit → Tree T Unit → Bool}
    (hp : ∀ n a b, ptrEq n a b = true → a = b) (fuel : Nat) : ∀ (lhs : Tree T Unit) (n : Nat)
    (w : List (Tree T Unit × Bool)), Sorted lhs.toList → (∀ e ∈ w, EntryOk e) →
    Sorted (aheads w) → mus w < fuel →
    ∃ b n' w', hasAll ptrEq fuel lhs n w = some (b, n', w') ∧
      (b = true → (∀ x ∈ lhs.toList, ∃ e ∈ aheads w, compare x.1 e.1 = .eq) ∧
        (∀ e ∈ w', EntryOk e) ∧ aheads w' <:+ aheads w ∧ mus w' ≤ mus w ∧
        ∀ e ∈ aheads w, (∀ x ∈ lhs.toList, compare x.1 e.1 = .lt) → e ∈ aheads w') ∧
      (b = false → ∃ x ∈ lhs.toList, ∀ e ∈ aheads w, compare x.1 e.1 ≠ .eq) := by
  intro lhs
  induction lhs with
  | nil =>
    intro n w _ hok hs hf
    exact ⟨true, n, w, rfl, fun _ => ⟨by simp [toList], hok, List.suffix_rfl, Nat.le_refl _,
      fun e he _ => he⟩, by simp⟩
  | node k v lh rh l r ihl ihr =>
    intro n w hsl hok hs hf
    simp only [toList] at hsl
    have hsl1 : Sorted l.toList := hsl.sublist (List.sublist_append_left _ _)
    have hsl2 : Sorted ((k, v) :: r.toList) := hsl.sublist (List.sublist_append_right _ _)
    have hlk : ∀ x ∈ l.toList, compare x.1 k = .lt :=
      fun x hx => (List.pairwise_append.1 hsl).2.2 x hx (k, v) (by simp)
    have hkr : ∀ x ∈ r.toList, compare k x.1 = .lt := (sorted_cons.1 hsl2).1
    obtain ⟨b1, n1, w1, e1, t1, f1⟩ := ihl n w hsl1 hok hs hf
    simp only [hasAll, e1]
    cases b1 with
    | false =>
      obtain ⟨x, hx, hx2⟩ := f1 rfl
      exact ⟨false, n1, w1, rfl, by simp, fun _ => ⟨x, by simp [toList, hx], hx2⟩⟩
    | true =>
      obtain ⟨a1, a2, a3, a4, a5⟩ := t1 rfl
      have hs1 : Sorted (aheads w1) := hs.sublist a3.sublist
      obtain ⟨n2, res, e2, h2⟩ := seek_spec hp (.node k v lh rh l r) k ⟨(k, v), by simp [toList], rfl⟩
        fuel n1 w1 a2 hs1 (by omega)
      simp only [e2]
      -- entries ahead that are not above `l` are not equal to, or above, `k`
      have hup : ∀ e ∈ aheads w, compare k e.1 ≠ .gt → e ∈ aheads w1 := by
        intro e he hx
        apply a5 e he
        intro x hx1
        cases hc : compare k e.1 with
        | lt => exact cmp_lt_trans (hlk x hx1) hc
        | eq => rw [← cmp_congr_right hc]; exact hlk x hx1
        | gt => exact absurd hc hx
      cases res with
      | fail =>
        refine ⟨false, n2, w1, rfl, by simp, fun _ => ⟨(k, v), by simp [toList], ?_⟩⟩
        intro e he hx
        exact h2 e (hup e he (by simp [hx])) hx
      | same w2 =>
        obtain ⟨c1, c2, c3, c4, c5⟩ := h2
        obtain ⟨d1, d2⟩ := c1 _ _ _ _ _ _ rfl
        refine ⟨true, n2, w2, rfl, fun _ => ⟨?_, c2, c3.trans a3, Nat.le_trans c4 a4, ?_⟩, by simp⟩
        · intro x hx
          simp only [toList, List.mem_append, List.mem_cons] at hx
          rcases hx with hx | rfl | hx
          · exact a1 x hx
          · exact ⟨_, a3.mem d1, cmp_self _⟩
          · exact ⟨x, a3.mem (d2 x hx), cmp_self _⟩
        · intro e he hx
          exact c5 e (hup e he (by simp [hx (k, v) (by simp [toList])])) hx
      | found w2 =>
        obtain ⟨⟨y, y1, y2⟩, c2, c3, c4, c5⟩ := h2
        have hs2 : Sorted (aheads w2) := hs1.sublist c3.sublist
        obtain ⟨b3, n3, w3, e3, t3, f3⟩ := ihr n2 w2 (sorted_cons.1 hsl2).2 c2 hs2 (by omega)
        refine ⟨b3, n3, w3, e3, ?_, ?_⟩
        · intro hb
          obtain ⟨g1, g2, g3, g4, g5⟩ := t3 hb
          refine ⟨?_, g2, (g3.trans c3).trans a3, by omega, ?_⟩
          · intro x hx
            simp only [toList, List.mem_append, List.mem_cons] at hx
            rcases hx with hx | rfl | hx
            · exact a1 x hx
            · exact ⟨y, a3.mem y1, y2⟩
            · obtain ⟨e, he, hc⟩ := g1 x hx
              exact ⟨e, a3.mem (c3.mem he), hc⟩
          · intro e he hx
            have hk := hx (k, v) (by simp [toList])
            exact g5 e (c5 e (hup e he (by simp [hk])) hk)
              (fun x hx1 => hx x (by simp [toList, hx1]))
        · intro hb
          obtain ⟨x, hx, hx2⟩ := f3 hb
          refine ⟨x, by simp [toList, hx], ?_⟩
          intro e he hc
          have hk : compare k e.1 = .lt := by
            rw [← cmp_congr_right hc]; exact hkr x hx
          exact hx2 e (c5 e (hup e he (by simp [hk])) hk) hc

/-- `is_subset` never panics and is exact. -/
theorem isSubset_spec {ptrEq : Nat → Tree T Unit → Tree T Unit → Bool}
    (hp : ∀ n a b, ptrEq n a b = true → a = b) {a b : AvlSet T} (ha : a.map.WF) (hb : b.map.WF) :
    ∃ r, isSubset ptrEq a b = some r ∧
      (r = true ↔ ∀ x ∈ a.elems, ∃ y ∈ b.elems, compare x y = .eq) := by
  have hla : a.len = a.map.abs.length := ha.len_eq
  have hlb : b.len = b.map.abs.length := hb.len_eq
  unfold isSubset
  by_cases he : a.isEmpty = true
  · refine ⟨true, by simp [he], ?_⟩
    have : a.map.abs = [] := by
      have h0 : a.len = 0 := by simpa [isEmpty, AvlMap.isEmpty, len] using he
      rw [hla] at h0; exact List.length_eq_zero_iff.1 h0
    simp [elems, this]
  · simp only [he, Bool.false_eq_true, if_false]
    by_cases hlt : b.len < a.len
    · refine ⟨false, by simp [hlt], ?_⟩
      simp only [Bool.false_eq_true, false_iff]
      intro hall
      rw [hla, hlb] at hlt
      -- pigeonhole on strictly ascending lists
      have hsub : ∀ (l1 l2 : List (T × Unit)), Sorted l1 → Sorted l2 →
          (∀ x ∈ l1, ∃ y ∈ l2, compare x.1 y.1 = .eq) → l1.length ≤ l2.length := by
        intro l1
        induction l1 with
        | nil => intro l2 _ _ _; simp
        | cons x l1 ih =>
          intro l2 h1 h2 h
          obtain ⟨y, hy, hxy⟩ := h x List.mem_cons_self
          have hlen := length_erase (isProbe_compare x.1) h2
          have hf : (Spec.find (compare x.1) l2).isSome = true := by
            rw [Option.isSome_iff_exists]
            exact ⟨y, (find_eq_some (isProbe_compare x.1) h2).2 ⟨hy, hxy⟩⟩
          rw [hf, if_pos rfl] at hlen
          have := ih (Spec.erase (compare x.1) l2) (sorted_cons.1 h1).2 (sorted_erase h2) (by
            intro z hz
            obtain ⟨u, hu, huz⟩ := h z (List.mem_cons_of_mem _ hz)
            refine ⟨u, ?_, huz⟩
            simp only [Spec.erase, List.mem_filter]
            refine ⟨hu, ?_⟩
            have h3 := (sorted_cons.1 h1).1 z hz
            rw [← cmp_congr_right huz, h3]; rfl)
          simp only [List.length_cons]
          omega
      have := hsub a.map.abs b.map.abs ha.sorted hb.sorted (by
        intro x hx
        obtain ⟨y, hy, hxy⟩ := hall x.1 (List.mem_map_of_mem hx)
        obtain ⟨e, he, rfl⟩ := List.mem_map.1 hy
        exact ⟨e, he, hxy⟩)
      omega
    · simp only [hlt, if_false]
      have hne : a.map.root ≠ .nil := by
        intro h
        have : a.len = 0 := by rw [hla, AvlMap.abs, h]; rfl
        simp [isEmpty, AvlMap.isEmpty] at he
        exact he this
      have hnb : b.map.root ≠ .nil := by
        intro h
        have h0 : b.len = 0 := by rw [hlb, AvlMap.abs, h]; rfl
        have : a.len = 0 := by omega
        simp [isEmpty, AvlMap.isEmpty] at he
        exact he this
      obtain ⟨r, n', w', e, t, f⟩ := hasAll_spec hp (2 * b.map.root.size + 1) a.map.root 0
        [(b.map.root, noLeft b.map.root)] ha.sorted
        (by intro x hx; rw [List.mem_singleton.1 hx]; exact entryOk_noLeft hnb)
        (by simp only [aheads_cons, ahead_noLeft]; simpa [aheads, AvlMap.abs] using hb.sorted)
        (by have := mu_noLeft b.map.root; simp only [mus_cons]; simp [mus]; omega)
      refine ⟨r, ?_, ?_⟩
      · cases hra : a.map.root with
        | nil => exact absurd hra hne
        | node =>
          cases hrb : b.map.root with
          | nil => exact absurd hrb hnb
          | node => rw [hra, hrb] at e; dsimp only; rw [e]; rfl
      · have ea : aheads [(b.map.root, noLeft b.map.root)] = b.map.abs := by
          simp only [aheads_cons, ahead_noLeft]; simp [aheads, AvlMap.abs]
        rw [ea] at t f
        constructor
        · intro hr x hx
          obtain ⟨e, he, rfl⟩ := List.mem_map.1 hx
          obtain ⟨y, hy, hc⟩ := (t hr).1 e he
          exact ⟨y.1, List.mem_map_of_mem hy, hc⟩
        · intro hall
          cases r with
          | true => rfl
          | false =>
            obtain ⟨x, hx, hx2⟩ := f rfl
            obtain ⟨y, hy, hc⟩ := hall x.1 (List.mem_map_of_mem hx)
            obtain ⟨e, he, rfl⟩ := List.mem_map.1 hy
            exact absurd hc (hx2 e he)

end Verif.Avl.AvlSet
