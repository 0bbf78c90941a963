import Verif.Avl.Shape
/-! Totality (no panic) and balance of removal, join, split, merge, retain. -/
namespace Verif.Avl
namespace Tree
variable {K V : Type _}

theorem afterRmLf_spec {k : K} {v : V} {lh rh : Int} {l r : Tree K V} {sh : Bool}
    (hl : Bal l) (hr : Bal r) (h1 : height l = lh - (if sh then 1 else 0))
    (h2 : rh = height r) (hb : -1 ≤ rh - lh) (hb' : rh - lh ≤ 1) :
    ∃ t' sh', afterRmLf k v lh rh l r sh = some (t', sh') ∧ Bal t' ∧
      height t' = max lh rh + 1 - (if sh' then 1 else 0) := by
  have hr0 := height_nonneg hr
  have hl0 := height_nonneg hl
  cases sh with
  | false =>
    simp at h1
    refine ⟨node k v lh rh l r, false, by simp [afterRmLf], ?_, ?_⟩
    · simp only [Bal, hl, hr, and_true]; omega
    · simp
  | true =>
    simp at h1
    by_cases hc : rh - (lh - 1) > 1
    · obtain ⟨t', sh, e, hB, hL, hH, -, -⟩ := rebalRtToLf_spec (k := k) (v := v) hl hr
        (lh := lh - 1) (rh := rh) (by omega) h2 (by omega)
      refine ⟨t', sh, ?_, hB, ?_⟩
      · simp only [afterRmLf, if_true, Bool.true_and, decide_eq_true_eq, if_pos hc, e]
      · rw [hH]; omega
    · refine ⟨node k v (lh-1) rh l r, decide (rh - (lh - 1) = 0), ?_, ?_, ?_⟩
      · simp only [afterRmLf, if_true, Bool.true_and, decide_eq_true_eq, if_neg hc]
      · simp only [Bal, hl, hr, and_true]; omega
      · simp only [height_node, decide_eq_true_eq]; split <;> omega

theorem afterRmRt_spec {k : K} {v : V} {lh rh : Int} {l r : Tree K V} {sh : Bool}
    (hl : Bal l) (hr : Bal r) (h1 : lh = height l)
    (h2 : height r = rh - (if sh then 1 else 0)) (hb : -1 ≤ rh - lh) (hb' : rh - lh ≤ 1) :
    ∃ t' sh', afterRmRt k v lh rh l r sh = some (t', sh') ∧ Bal t' ∧
      height t' = max lh rh + 1 - (if sh' then 1 else 0) := by
  have hr0 := height_nonneg hr
  have hl0 := height_nonneg hl
  cases sh with
  | false =>
    simp at h2
    refine ⟨node k v lh rh l r, false, by simp [afterRmRt], ?_, ?_⟩
    · simp only [Bal, hl, hr, and_true]; omega
    · simp
  | true =>
    simp at h2
    by_cases hc : rh - 1 - lh < -1
    · obtain ⟨t', sh, e, hB, hL, hH, -, -⟩ := rebalLfToRt_spec (k := k) (v := v) hl hr
        (lh := lh) (rh := rh - 1) (by omega) h2.symm (by omega)
      refine ⟨t', sh, ?_, hB, ?_⟩
      · simp only [afterRmRt, if_true, Bool.true_and, decide_eq_true_eq, if_pos hc, e]
      · rw [hH]; omega
    · refine ⟨node k v lh (rh-1) l r, decide (rh - 1 - lh = 0), ?_, ?_, ?_⟩
      · simp only [afterRmRt, if_true, Bool.true_and, decide_eq_true_eq, if_neg hc]
      · simp only [Bal, hl, hr, and_true]; omega
      · simp only [height_node, decide_eq_true_eq]; split <;> omega

theorem rmLeftmost_shape (t : Tree K V) (h : Bal t) :
    ∃ t' kv sh, rmLeftmost t = some (t', kv, sh) ∧ Bal t' ∧
      height t' = height t - (if sh then 1 else 0) := by
  fun_induction rmLeftmost t with
  | case1 => exact ⟨_, _, _, rfl, h, by simp⟩
  | case2 k v lh rh r =>
    obtain ⟨h1, h2, h3, h4, hl, hr⟩ := h
    have := height_nonneg hr
    exact ⟨_, _, _, rfl, hr, by simp at h1 ⊢; omega⟩
  | case3 k v lh rh lk lv llh lrh ll lr r e ih =>
    obtain ⟨h1, h2, h3, h4, hl, hr⟩ := h
    obtain ⟨t', kv, sh, e', _⟩ := ih hl
    simp [e] at e'
  | case4 k v lh rh lk lv llh lrh ll lr r l' kv sh e ih =>
    obtain ⟨h1, h2, h3, h4, hl, hr⟩ := h
    obtain ⟨t', kv', sh', e', hB, hH⟩ := ih hl
    rw [e] at e'
    simp only [Option.some.injEq, Prod.mk.injEq] at e'
    obtain ⟨rfl, rfl, rfl⟩ := e'
    obtain ⟨t2, sh2, e2, hB2, hH2⟩ := afterRmLf_spec (k := k) (v := v) hB hr
      (lh := lh) (rh := rh) (sh := sh) (by rw [hH, ← h1]) h2 h3 h4
    refine ⟨t2, kv, sh2, by simp [e2], hB2, by simpa using hH2⟩

theorem rmRightmost_shape (t : Tree K V) (h : Bal t) :
    ∃ t' kv sh, rmRightmost t = some (t', kv, sh) ∧ Bal t' ∧
      height t' = height t - (if sh then 1 else 0) := by
  fun_induction rmRightmost t with
  | case1 => exact ⟨_, _, _, rfl, h, by simp⟩
  | case2 k v lh rh r =>
    obtain ⟨h1, h2, h3, h4, hl, hr⟩ := h
    have := height_nonneg hl
    exact ⟨_, _, _, rfl, hl, by simp at h2 ⊢; omega⟩
  | case3 k v lh rh l rk rv rlh rrh rl rr e ih =>
    obtain ⟨h1, h2, h3, h4, hl, hr⟩ := h
    obtain ⟨t', kv, sh, e', _⟩ := ih hr
    simp [e] at e'
  | case4 k v lh rh l rk rv rlh rrh rl rr r' kv sh e ih =>
    obtain ⟨h1, h2, h3, h4, hl, hr⟩ := h
    obtain ⟨t', kv', sh', e', hB, hH⟩ := ih hr
    rw [e] at e'
    simp only [Option.some.injEq, Prod.mk.injEq] at e'
    obtain ⟨rfl, rfl, rfl⟩ := e'
    obtain ⟨t2, sh2, e2, hB2, hH2⟩ := afterRmRt_spec (k := k) (v := v) hl hB
      (lh := lh) (rh := rh) (sh := sh) h1 (by rw [hH, ← h2]) h3 h4
    refine ⟨t2, kv, sh2, by simp [e2], hB2, by simpa using hH2⟩

/-- The two ends of the in-order list. -/
theorem rmLeftmost_toList {t t' : Tree K V} {kv sh} (h : rmLeftmost t = some (t', kv, sh)) :
    toList t' = (toList t).tail ∧ kv = (toList t).head? := by
  induction t generalizing t' kv sh with
  | nil => simp [rmLeftmost] at h; simp [← h.1, ← h.2.1]
  | node k v lh rh l r ihl ihr =>
    cases l with
    | nil => simp [rmLeftmost] at h; simp [← h.1, ← h.2.1, toList]
    | node lk lv llh lrh ll lr =>
      simp only [rmLeftmost] at h
      split at h
      · simp at h
      · rename_i l' kv0 sh0 e
        obtain ⟨i1, i2⟩ := ihl e
        simp only [Option.map_eq_some_iff, Prod.mk.injEq] at h
        obtain ⟨x, ex, rfl, rfl, rfl⟩ := h
        have := afterRmLf_toList (t' := x.1) (b := x.2) ex
        rw [this, i1, i2]
        simp only [toList]
        cases toList ll <;> simp

theorem rmRightmost_toList {t t' : Tree K V} {kv sh} (h : rmRightmost t = some (t', kv, sh)) :
    toList t' = (toList t).dropLast ∧ kv = (toList t).getLast? := by
  induction t generalizing t' kv sh with
  | nil => simp [rmRightmost] at h; simp [← h.1, ← h.2.1]
  | node k v lh rh l r ihl ihr =>
    cases r with
    | nil => simp [rmRightmost] at h; simp [← h.1, ← h.2.1, toList]
    | node lk lv llh lrh ll lr =>
      simp only [rmRightmost] at h
      split at h
      · simp at h
      · rename_i l' kv0 sh0 e
        obtain ⟨i1, i2⟩ := ihr e
        simp only [Option.map_eq_some_iff, Prod.mk.injEq] at h
        obtain ⟨x, ex, rfl, rfl, rfl⟩ := h
        have := afterRmRt_toList (t' := x.1) (b := x.2) ex
        rw [this, i1, i2]
        simp only [toList]
        have hne : ll.toList ++ (lk, lv) :: lr.toList ≠ [] := by simp
        generalize ll.toList ++ (lk, lv) :: lr.toList = m at hne
        rw [List.dropLast_append_of_ne_nil (by simp), List.dropLast_cons_of_ne_nil hne]
        rw [List.getLast?_append, List.getLast?_cons]
        cases m with
        | nil => simp at hne
        | cons a m => simp [List.getLast?_cons]

theorem rm_shape (p : K → Ordering) : ∀ t : Tree K V, Bal t →
    ∃ t' kv sh, rm p t = some (t', kv, sh) ∧ Bal t' ∧
      height t' = height t - (if sh then 1 else 0)
  | nil, h => ⟨nil, none, false, rfl, h, by simp⟩
  | node k v lh rh l r, h => by
    obtain ⟨h1, h2, h3, h4, hl, hr⟩ := h
    have hl0 := height_nonneg hl
    have hr0 := height_nonneg hr
    unfold rm
    split
    · obtain ⟨l', kv, sh, e, hB, hH⟩ := rm_shape p l hl
      obtain ⟨t2, sh2, e2, hB2, hH2⟩ := afterRmLf_spec (k := k) (v := v) hB hr
        (lh := lh) (rh := rh) (sh := sh) (by rw [hH, ← h1]) h2 h3 h4
      exact ⟨t2, kv, sh2, by simp [e, e2], hB2, by simpa using hH2⟩
    · obtain ⟨r', kv, sh, e, hB, hH⟩ := rm_shape p r hr
      obtain ⟨t2, sh2, e2, hB2, hH2⟩ := afterRmRt_spec (k := k) (v := v) hl hB
        (lh := lh) (rh := rh) (sh := sh) h1 (by rw [hH, ← h2]) h3 h4
      exact ⟨t2, kv, sh2, by simp [e, e2], hB2, by simpa using hH2⟩
    · split
      · exact ⟨_, _, _, rfl, trivial, by simp at h1 h2 ⊢; omega⟩
      · exact ⟨_, _, _, rfl, hr, by simp at h1 h2 ⊢; omega⟩
      · exact ⟨_, _, _, rfl, hl, by simp at h1 h2 ⊢; omega⟩
      · obtain ⟨r', kv, sh, e, hB, hH⟩ := rmLeftmost_shape r hr
        have hc := (rmLeftmost_toList e).2
        cases r with
        | nil => simp_all
        | node rk rv rlh rrh rl rr =>
          have : ∃ a, kv = some a := by
            rw [hc]; simp only [toList]; cases toList rl <;> simp
          obtain ⟨⟨sk, sv⟩, rfl⟩ := this
          obtain ⟨t2, sh2, e2, hB2, hH2⟩ := afterRmRt_spec (k := sk) (v := sv) hl hB
            (lh := lh) (rh := rh) (sh := sh) h1 (by rw [hH, ← h2]) h3 h4
          refine ⟨t2, some (k, v), sh2, by simp [e, e2], hB2, by simpa using hH2⟩

/-! ### join -/

theorem joinRt_shape (k : K) (v : V) (right : Tree K V) (hr : Bal right) :
    ∀ left : Tree K V, Bal left → height left > height right + 1 →
    ∃ t, joinRt left k v right = some t ∧ Bal t ∧
      (height t = height left ∨ (height t = height left + 1 ∧ balOf t = 1))
  | nil, _, hgt => by have := height_nonneg hr; simp at hgt; omega
  | node lk lv lh rh l c, hB, hgt => by
    have hB0 := hB
    obtain ⟨h1, h2, h3, h4, hl, hc⟩ := hB
    have hl0 := height_nonneg hl
    have hc0 := height_nonneg hc
    have hr0 := height_nonneg hr
    unfold joinRt
    simp only [if_pos hgt]
    simp only [height_node] at hgt
    by_cases hle : height c ≤ height right + 1
    · simp only [if_pos hle, mk, height_node]
      by_cases hb : isBal (max c.height right.height + 1 - lh) = true
      · simp only [hb, if_true]
        rw [isBal_iff] at hb
        refine ⟨_, rfl, ?_, ?_⟩
        · simp only [Bal, height_node, hl, hc, hr, and_true, true_and]; omega
        · simp only [height_node, balOf]; omega
      · simp only [hb]
        rw [isBal_iff] at hb
        cases c with
        | nil => simp at *; omega
        | node ck cv clh crh x y =>
          obtain ⟨f1, f2, f3, f4, hx, hy⟩ := hc
          have hx0 := height_nonneg hx
          have hy0 := height_nonneg hy
          simp only [height_node] at *
          simp only [rotRt, rotLf, Option.map_some]
          refine ⟨_, rfl, ?_, ?_⟩
          · simp only [Bal, height_node, hl, hx, hy, hr, and_true, true_and]; omega
          · simp only [height_node, balOf]; omega
    · simp only [if_neg hle]
      obtain ⟨t1, e, hB1, hH1⟩ := joinRt_shape k v right hr c hc (by omega)
      simp only [e]
      by_cases hb : isBal (height t1 - lh) = true
      · simp only [hb, if_true]
        rw [isBal_iff] at hb
        refine ⟨_, rfl, ?_, ?_⟩
        · simp only [Bal, hl, hB1, and_true, true_and]; omega
        · simp only [height_node, balOf]; omega
      · simp only [hb]
        rw [isBal_iff] at hb
        cases t1 with
        | nil => simp only [height_nil] at *; omega
        | node bk bv blh brh x y =>
          obtain ⟨f1, f2, f3, f4, hx, hy⟩ := hB1
          have hx0 := height_nonneg hx
          have hy0 := height_nonneg hy
          simp only [height_node, balOf] at *
          simp only [rotLf, Option.map_some]
          refine ⟨_, rfl, ?_, ?_⟩
          · simp only [Bal, height_node, hl, hx, hy, and_true, true_and]; omega
          · simp only [height_node]; omega

theorem joinLf_shape (k : K) (v : V) (left : Tree K V) (hlf : Bal left) :
    ∀ right : Tree K V, Bal right → height right > height left + 1 →
    ∃ t, joinLf left k v right = some t ∧ Bal t ∧
      (height t = height right ∨ (height t = height right + 1 ∧ balOf t = -1))
  | nil, _, hgt => by have := height_nonneg hlf; simp at hgt; omega
  | node lk lv lh rh c r, hB, hgt => by
    have hB0 := hB
    obtain ⟨h1, h2, h3, h4, hc, hr⟩ := hB
    have hl0 := height_nonneg hlf
    have hc0 := height_nonneg hc
    have hr0 := height_nonneg hr
    unfold joinLf
    simp only [if_pos hgt]
    simp only [height_node] at hgt
    by_cases hle : height c ≤ height left + 1
    · simp only [if_pos hle, mk, height_node]
      by_cases hb : isBal (rh - (max left.height c.height + 1)) = true
      · simp only [hb, if_true]
        rw [isBal_iff] at hb
        refine ⟨_, rfl, ?_, ?_⟩
        · simp only [Bal, height_node, hlf, hc, hr, and_true, true_and]; omega
        · simp only [height_node, balOf]; omega
      · simp only [hb]
        rw [isBal_iff] at hb
        cases c with
        | nil => simp at *; omega
        | node ck cv clh crh x y =>
          obtain ⟨f1, f2, f3, f4, hx, hy⟩ := hc
          have hx0 := height_nonneg hx
          have hy0 := height_nonneg hy
          simp only [height_node] at *
          simp only [rotRt, rotLf, bal?]
          have hbal : isBal (max crh rh + 1 - (max left.height clh + 1)) = true := by
            rw [isBal_iff]; omega
          simp only [hbal, if_true]
          refine ⟨_, rfl, ?_, ?_⟩
          · simp only [Bal, height_node, hlf, hx, hy, hr, and_true, true_and]; omega
          · simp only [height_node, balOf]; omega
    · simp only [if_neg hle]
      obtain ⟨t1, e, hB1, hH1⟩ := joinLf_shape k v left hlf c hc (by omega)
      simp only [e]
      by_cases hb : isBal (rh - height t1) = true
      · simp only [hb, if_true]
        rw [isBal_iff] at hb
        refine ⟨_, rfl, ?_, ?_⟩
        · simp only [Bal, hr, hB1, and_true, true_and]; omega
        · simp only [height_node, balOf]; omega
      · simp only [hb]
        rw [isBal_iff] at hb
        cases t1 with
        | nil => simp only [height_nil] at *; omega
        | node bk bv blh brh x y =>
          obtain ⟨f1, f2, f3, f4, hx, hy⟩ := hB1
          have hx0 := height_nonneg hx
          have hy0 := height_nonneg hy
          simp only [height_node, balOf] at *
          simp only [rotRt, Option.map_some]
          refine ⟨_, rfl, ?_, ?_⟩
          · simp only [Bal, height_node, hr, hx, hy, and_true, true_and]; omega
          · simp only [height_node]; omega

theorem join_shape (l : Tree K V) (k : K) (v : V) (r : Tree K V) (hl : Bal l) (hr : Bal r) :
    ∃ t, join l k v r = some t ∧ Bal t ∧
      max (height l) (height r) ≤ height t ∧ height t ≤ max (height l) (height r) + 1 := by
  have hl0 := height_nonneg hl
  have hr0 := height_nonneg hr
  unfold join
  dsimp only
  split
  · obtain ⟨t, e, hB, hH⟩ := joinRt_shape k v r hr l hl (by omega)
    exact ⟨t, e, hB, by omega, by omega⟩
  · split
    · obtain ⟨t, e, hB, hH⟩ := joinLf_shape k v l hl r hr (by omega)
      exact ⟨t, e, hB, by omega, by omega⟩
    · refine ⟨_, rfl, ?_, ?_, ?_⟩
      · simp only [mk, Bal, hl, hr, and_true, true_and]; omega
      · simp only [mk, height_node]; omega
      · simp only [mk, height_node]; omega

theorem joinRt_toList {k : K} {v : V} {right : Tree K V} : ∀ {left t : Tree K V},
    joinRt left k v right = some t → toList t = toList left ++ (k, v) :: toList right
  | nil, t, h => by simp [joinRt] at h
  | node lk lv lh rh l c, t, h => by
    unfold joinRt at h
    split at h
    · split at h
      · dsimp only at h
        split at h
        · simp at h; rw [← h]; simp [toList, mk]
        · split at h
          · simp at h
          · rename_i t1' sh e
            simp only [Option.map_eq_some_iff] at h
            obtain ⟨x, ex, rfl⟩ := h
            rw [rotLf_toList (b := x.2) ex]
            simp [toList, rotRt_toList e, mk]
      · split at h
        · simp at h
        · rename_i t1 e
          have ih := joinRt_toList e
          dsimp only at h
          split at h
          · simp at h; rw [← h]; simp [toList, ih]
          · simp only [Option.map_eq_some_iff] at h
            obtain ⟨x, ex, rfl⟩ := h
            rw [rotLf_toList (b := x.2) ex]
            simp [toList, ih]
    · simp at h

theorem joinLf_toList {k : K} {v : V} {left : Tree K V} : ∀ {right t : Tree K V},
    joinLf left k v right = some t → toList t = toList left ++ (k, v) :: toList right
  | nil, t, h => by simp [joinLf] at h
  | node lk lv lh rh c r, t, h => by
    unfold joinLf at h
    split at h
    · split at h
      · dsimp only at h
        split at h
        · simp at h; rw [← h]; simp [toList, mk]
        · split at h
          · simp at h
          · rename_i t1' sh e
            split at h
            · simp at h
            · rename_i t2 sh2 e2
              have : toList t2 = toList left ++ (k, v) :: (toList c ++ (lk, lv) :: toList r) := by
                rw [rotRt_toList e2]; simp [toList, rotLf_toList e, mk]
              split at h
              · simp at h
              · split at h
                · simp at h; rw [← h, this]; simp [toList]
                · simp at h
      · split at h
        · simp at h
        · rename_i t1 e
          have ih := joinLf_toList e
          dsimp only at h
          split at h
          · simp at h; rw [← h]; simp [toList, ih]
          · simp only [Option.map_eq_some_iff] at h
            obtain ⟨x, ex, rfl⟩ := h
            rw [rotRt_toList (b := x.2) ex]
            simp [toList, ih]
    · simp at h

theorem join_toList {l r t : Tree K V} {k : K} {v : V} (h : join l k v r = some t) :
    toList t = toList l ++ (k, v) :: toList r := by
  unfold join at h
  dsimp only at h
  split at h
  · exact joinRt_toList h
  · split at h
    · exact joinLf_toList h
    · simp at h; rw [← h]; simp [mk, toList]

theorem join2_shape (l : Tree K V) (kv : Option (K × V)) (r : Tree K V) (hl : Bal l)
    (hr : Bal r) : ∃ t, join2 l kv r = some t ∧ Bal t := by
  unfold join2
  split
  · obtain ⟨t, e, hB, _⟩ := join_shape l _ _ r hl hr
    exact ⟨t, e, hB⟩
  · split
    · exact ⟨_, rfl, hr⟩
    · exact ⟨_, rfl, hl⟩
    · rename_i hn1 hn2
      obtain ⟨r', kv, sh, e, hB, hH⟩ := rmLeftmost_shape r hr
      have hc := (rmLeftmost_toList e).2
      cases r with
      | nil => exact absurd rfl hn2
      | node rk rv rlh rrh rl rr =>
        have : ∃ a, kv = some a := by
          rw [hc]; simp only [toList]; cases toList rl <;> simp
        obtain ⟨⟨sk, sv⟩, rfl⟩ := this
        obtain ⟨t, e2, hB2, _⟩ := join_shape l sk sv r' hl hB
        exact ⟨t, by simp [e, e2], hB2⟩

theorem join2_toList {l r t : Tree K V} {kv : Option (K × V)} (h : join2 l kv r = some t) :
    toList t = toList l ++ kv.toList ++ toList r := by
  unfold join2 at h
  split at h
  · rw [join_toList h]; simp
  · split at h
    · simp at h; rw [← h]; simp
    · simp at h; rw [← h]; simp
    · split at h
      · rename_i e
        have ⟨h1, h2⟩ := rmLeftmost_toList e
        rw [join_toList h, h1]
        cases hr : r.toList with
        | nil => simp [hr] at h2
        | cons a m => simp [hr] at h2; simp [h2]
      · simp at h

theorem split_shape (p : K → Ordering) : ∀ t : Tree K V, Bal t →
    ∃ l kv r, split p t = some (l, kv, r) ∧ Bal l ∧ Bal r
  | nil, h => ⟨nil, none, nil, rfl, trivial, trivial⟩
  | node k v lh rh l r, h => by
    obtain ⟨h1, h2, h3, h4, hl, hr⟩ := h
    unfold split
    split
    · exact ⟨_, _, _, rfl, hl, hr⟩
    · obtain ⟨l1, kv, r1, e, hB1, hB2⟩ := split_shape p l hl
      obtain ⟨t, e2, hB, _⟩ := join_shape r1 k v r hB2 hr
      exact ⟨l1, kv, t, by simp [e, e2], hB1, hB⟩
    · obtain ⟨l1, kv, r1, e, hB1, hB2⟩ := split_shape p r hr
      obtain ⟨t, e2, hB, _⟩ := join_shape l k v l1 hl hB1
      exact ⟨t, kv, r1, by simp [e, e2], hB, hB2⟩

theorem merge_shape [Ord K] (kl kr : Bool) (dec : K × V → K × V → Option (K × V)) :
    ∀ t1 t2 : Tree K V, Bal t1 → Bal t2 → ∃ t, merge kl kr dec t1 t2 = some t ∧ Bal t
  | nil, t2, _, h2 => by
    unfold merge; split
    · exact ⟨_, rfl, h2⟩
    · exact ⟨_, rfl, trivial⟩
  | node k v lh rh l r, nil, h1, _ => by
    unfold merge; split
    · exact ⟨_, rfl, h1⟩
    · exact ⟨_, rfl, trivial⟩
  | node k v lh rh l r, node k2 v2 lh2 rh2 l2 r2, h1, h2 => by
    obtain ⟨_, _, _, _, hl, hr⟩ := h1
    obtain ⟨lt, kv2, gt, e, hlt, hgt⟩ := split_shape (compare k) _ h2
    obtain ⟨l', el, hl'⟩ := merge_shape kl kr dec l lt hl hlt
    obtain ⟨r', er, hr'⟩ := merge_shape kl kr dec r gt hr hgt
    unfold merge
    simp only [e, el, er]
    exact join2_shape _ _ _ hl' hr'

/-- With a closure that does not panic, `retain` does not panic. -/
theorem retain_shape {σ : Type _} (f : σ → K → V → σ × V × Bool) :
    ∀ (s : σ) (t : Tree K V), Bal t →
    ∃ s' t' n, retain (fun s k v => some (f s k v)) s t = some (s', t', n) ∧ Bal t'
  | s, nil, h => ⟨s, nil, 0, rfl, h⟩
  | s, node k v lh rh l r, h => by
    obtain ⟨h1, h2, h3, h4, hl, hr⟩ := h
    obtain ⟨s1, l', nl, e1, hB1⟩ := retain_shape f s l hl
    obtain ⟨s2, r', nr, e2, hB2⟩ := retain_shape f s1 r hr
    unfold retain
    simp only [e1, e2]
    rcases hf : f s2 k v with ⟨s3, v', b⟩
    cases b
    · obtain ⟨t, e3, hB⟩ := join2_shape l' none r' hB1 hB2
      simp only [e3, Option.map_some]
      exact ⟨_, _, _, rfl, hB⟩
    · obtain ⟨t, e3, hB, _⟩ := join_shape l' k v' r' hB1 hB2
      simp only [e3, Option.map_some]
      exact ⟨_, _, _, rfl, hB⟩

end Tree
end Verif.Avl
