import Verif.Fixed.Model
/-!
# The fixed-layout B-tree meets its specification
-/
set_option linter.unusedSectionVars false
set_option linter.unusedVariables false
namespace Verif.Fixed
open Std Verif.BTree Verif.BTree.Node
variable {K V : Type}

/-! ### Search -/

theorem bsLoop_spec {f : Nat → Ordering} {g : Nat → Option Ordering} {n : Nat}
    (hg : ∀ j, j < n → g j = some (f j))
    (hmono : ∀ a b, a < b → b < n → f a ≠ .gt → f b = .lt) :
    ∀ (fuel base size : Nat), size ≤ fuel → 0 < size → base + size ≤ n →
      (base = 0 ∨ f base ≠ .lt) → (∀ j, base + size ≤ j → j < n → f j = .lt) →
      ∃ b, bsLoop g fuel base size = some b ∧ b < n ∧ (b = 0 ∨ f b ≠ .lt) ∧
        ∀ j, b < j → j < n → f j = .lt := by
  intro fuel
  induction fuel with
  | zero => intro base size h1 h2; omega
  | succ fuel ih =>
    intro base size h1 h2 h3 h4 h5
    rw [bsLoop]
    by_cases hs : 1 < size
    · rw [if_pos hs, hg _ (by omega)]
      dsimp only
      by_cases ho : f (base + size / 2) = .lt
      · rw [if_pos ho]
        refine ih base (size - size / 2) (by omega) (by omega) (by omega) h4 ?_
        intro j hj hjn
        by_cases hjm : j = base + size / 2
        · rw [hjm]; exact ho
        · exact hmono (base + size / 2) j (by omega) hjn (by rw [ho]; simp)
      · rw [if_neg ho]
        exact ih (base + size / 2) (size - size / 2) (by omega) (by omega) (by omega) (Or.inr ho)
          (fun j hj hjn => h5 j (by omega) hjn)
    · rw [if_neg hs]
      exact ⟨base, rfl, by omega, h4, fun j hj hjn => h5 j (by omega) hjn⟩

/-- On a strictly sorted slice, binary search and linear search agree. -/
theorem searchKeys_eq [Ord K] [TransOrd K] {p : K → Ordering} (hp : IsProbe p)
    {es : List (K × V)} (hs : Sorted es) (hne : 0 < es.length) (lin : Bool) :
    searchKeys lin p es = some (locate p es) := by
  have he : es.isEmpty = false := by cases es <;> simp_all
  rw [searchKeys, he]
  simp only [Bool.false_eq_true, if_false]
  cases lin with
  | true => rfl
  | false =>
    simp only [Bool.false_eq_true, if_false]
    obtain ⟨f, hf⟩ : ∃ f : Nat → Ordering, ∀ j (h : j < es.length), f j = p es[j].1 :=
      ⟨fun j => if h : j < es.length then p es[j].1 else .eq, fun j h => by simp [h]⟩
    have hg : ∀ j, j < es.length → (es[j]?).map (fun e => p e.1) = some (f j) := by
      intro j hj; simp [hj, hf j hj]
    have hmono : ∀ a b, a < b → b < es.length → f a ≠ .gt → f b = .lt := by
      intro a b hab hb ha
      rw [hf b hb]
      rw [hf a (by omega)] at ha
      exact hp.mono _ _ (List.pairwise_iff_getElem.1 hs a b (by omega) hb hab) ha
    obtain ⟨b, e, hb, hb0, hgt⟩ := bsLoop_spec (g := fun i => (es[i]?).map (fun e => p e.1)) hg
      hmono (es.length + 1) 0 es.length (by omega) hne (by omega) (Or.inl rfl)
      (fun j h1 h2 => by omega)
    rw [bsearch, e]
    dsimp only
    rw [hg b hb]
    obtain ⟨es1, es2, h1, h2, h3, h4⟩ := locate_spec p es
    have hlt1 : ∀ j, j < es1.length → f j = .gt := by
      intro j hj
      have hj' : j < es.length := by rw [h1]; simp; omega
      rw [hf j hj']
      have : es[j] = es1[j] := by simp [h1, hj]
      rw [this]; exact h3 _ (List.getElem_mem _)
    have hat : ∀ (h : es1.length < es.length), ∃ x es3, es2 = x :: es3 ∧ f es1.length = p x.1 := by
      intro h
      cases es2 with
      | nil => rw [h1] at h; simp at h
      | cons x es3 =>
        refine ⟨x, es3, rfl, ?_⟩
        rw [hf _ h]
        have : es[es1.length] = x := by simp [h1]
        rw [this]
    have hll : es1.length ≤ es.length := by rw [h1]; simp
    have hloc : locate p es = (es1.length, (locate p es).2) := Prod.ext h2 rfl
    have key : ∀ (h : es1.length < es.length), f es1.length ≠ .gt ∧
        ((locate p es).2 = true ↔ f es1.length = .eq) := by
      intro h
      obtain ⟨x, es3, e1, e2⟩ := hat h
      rw [e2]
      cases hb : (locate p es).2 with
      | true =>
        rw [hb] at h4; simp only [if_true] at h4
        obtain ⟨y, es4, e3, hy⟩ := h4
        rw [e1] at e3; obtain ⟨rfl, rfl⟩ := List.cons.inj e3
        simp [hy]
      | false =>
        rw [hb] at h4; simp only [Bool.false_eq_true, if_false] at h4
        simp [h4 x es3 e1]
    have kend : es1.length = es.length → (locate p es).2 = false := by
      intro h
      cases hb : (locate p es).2 with
      | false => rfl
      | true =>
        rw [hb] at h4; simp only [if_true] at h4
        obtain ⟨y, es4, e3, hy⟩ := h4
        rw [h1, e3] at h; simp at h
    cases hfb : f b with
    | eq =>
      have : b = es1.length := by
        rcases Nat.lt_trichotomy b es1.length with h | h | h
        · rw [hlt1 b h] at hfb; simp at hfb
        · exact h
        · have := hmono _ b h hb (key (by omega)).1
          rw [hfb] at this; simp at this
      subst this
      rw [hloc, (key hb).2.2 hfb]
    | gt =>
      have hbl : b < es1.length := by
        rcases Nat.lt_or_ge b es1.length with h | h
        · exact h
        · exfalso
          rcases Nat.eq_or_lt_of_le h with h | h
          · exact (key (by omega)).1 (h ▸ hfb)
          · have := hmono _ b h hb (key (by omega)).1
            rw [hfb] at this; simp at this
      have hb1 : b + 1 = es1.length := by
        rcases Nat.lt_or_ge (b + 1) es1.length with h | h
        · exfalso
          have := hgt (b + 1) (by omega) (by omega)
          rw [hlt1 _ h] at this; simp at this
        · omega
      have hfalse : (locate p es).2 = false := by
        rcases Nat.lt_or_ge es1.length es.length with h | h
        · have hl := hgt es1.length (by omega) h
          cases hb : (locate p es).2 with
          | false => rfl
          | true => rw [(key h).2.1 hb] at hl; simp at hl
        · exact kend (by omega)
      simp only []
      rw [hloc, hfalse, hb1]
    | lt =>
      have hb0' : b = 0 := by
        rcases hb0 with h | h
        · exact h
        · exact absurd hfb h
      have hz : es1.length = 0 := by
        rcases Nat.eq_zero_or_pos es1.length with h | h
        · exact h
        · have := hlt1 b (by omega)
          rw [hfb] at this; simp at this
      have hfalse : (locate p es).2 = false := by
        cases hbb : (locate p es).2 with
        | false => rfl
        | true =>
          have := (key (by omega)).2.1 hbb
          rw [hz, ← hb0', hfb] at this; simp at this
      simp only []
      rw [hloc, hfalse, hz, hb0']

theorem sublist_inter : ∀ (ks : List (Node K V)) (es : List (K × V)), es.Sublist (inter ks es)
  | [], es => by simp
  | c :: ks, [] => by simp
  | c :: ks, e :: es => by
    rw [inter_cons, post_cons]
    exact ((sublist_inter ks es).cons_cons e).trans (List.sublist_append_right _ _)

theorem sorted_elems [Ord K] {ks : List (Node K V)} {es : List (K × V)}
    (h : Sorted (inter ks es)) : Sorted es := h.sublist (sublist_inter ks es)

/-! ### Descent into a child -/

theorem getAt_eq (lin : Bool) (p : K → Ordering) : ∀ (i : Nat) (ks : List (Node K V)),
    getAt lin p i ks = match ks[i]? with | none => some none | some c => get lin p c
  | _, [] => by simp [getAt]
  | 0, c :: ks => by simp [getAt]
  | i + 1, c :: ks => by simp [getAt, getAt_eq lin p i ks]

theorem getMutAt_eq (lin : Bool) (p : K → Ordering) (g : V → V) :
    ∀ (i : Nat) (ks : List (Node K V)), getMutAt lin p g i ks = ks[i]?.map (getMut lin p g)
  | _, [] => by simp [getMutAt]
  | 0, c :: ks => by simp [getMutAt]
  | i + 1, c :: ks => by simp [getMutAt, getMutAt_eq lin p g i ks]

theorem insAt_eq [Ord K] (lin : Bool) (k : K) (v : V) : ∀ (i : Nat) (ks : List (Node K V)),
    insAt lin k v i ks = ks[i]?.map (ins lin k v)
  | _, [] => by simp [insAt]
  | 0, c :: ks => by simp [insAt]
  | i + 1, c :: ks => by simp [insAt, insAt_eq lin k v i ks]

theorem removeAt_eq (lin : Bool) (p : K → Ordering) : ∀ (i : Nat) (ks : List (Node K V)),
    removeAt lin p i ks = ks[i]?.map (remove lin p)
  | _, [] => by simp [removeAt]
  | 0, c :: ks => by simp [removeAt]
  | i + 1, c :: ks => by simp [removeAt, removeAt_eq lin p i ks]

theorem popGreatestKid_eq : ∀ (i : Nat) (ks : List (Node K V)),
    popGreatestKid i ks = ks[i]?.map popGreatest
  | _, [] => by simp [popGreatestKid]
  | 0, c :: ks => by simp [popGreatestKid]
  | i + 1, c :: ks => by simp [popGreatestKid, popGreatestKid_eq i ks]

theorem popGreatestAt_eq : ∀ (ks : List (Node K V)),
    popGreatestAt ks = ks.getLast?.map popGreatest
  | [] => by simp [popGreatestAt]
  | [c] => by simp [popGreatestAt]
  | _ :: c :: ks => by rw [popGreatestAt, popGreatestAt_eq (c :: ks), List.getLast?_cons_cons]

/-! ### Lookups agree with those of the other B-tree -/

section
variable [Ord K] [TransOrd K] {lin : Bool}

/-- A node in a tree: 5 to 11 elements, or at least one in the root. -/
theorem get_eq {p : K → Ordering} (hp : IsProbe p) :
    ∀ {h lo : Nat} {n : Node K V}, Ok MIN lo h n → 1 ≤ lo → Sorted n.toList →
      get lin p n = some (Spec.find p n.toList) := by
  intro h
  induction h with
  | zero =>
    intro lo n hn hlo1 hs
    obtain ⟨es, ks⟩ := n
    obtain ⟨rfl, hlo, -⟩ := hn
    simp only [toList_mk, inter_nil] at hs ⊢
    rw [get, searchKeys_eq hp hs (by omega)]
    by_cases hb : (locate p es).2 = true
    · obtain ⟨es1, x, es2, e, hi, hx, h1, h2⟩ := focus_leaf_eq hp hs hb
      rw [show locate p es = (es1.length, true) from Prod.ext hi.symm hb]
      dsimp only; subst e
      rw [find_single hx h1 h2, get_mid]; rfl
    · have hb' : (locate p es).2 = false := by simpa using hb
      obtain ⟨es1, es2, e, hi, h1, h2⟩ := focus_leaf hp hs hb'
      rw [show locate p es = (es1.length, false) from Prod.ext hi.symm hb']
      dsimp only; rw [getAt_eq]; subst e
      have := find_ctx (c := []) h1 h2
      simp only [List.append_nil] at this
      rw [this]; simp [Spec.find]
  | succ h ih =>
    intro lo n hn hlo1 hs
    obtain ⟨es, ks⟩ := n
    obtain ⟨hl, hlo, -, hk⟩ := hn
    simp only [toList_mk] at hs ⊢
    rw [get, searchKeys_eq hp (sorted_elems hs) (by omega)]
    by_cases hb : (locate p es).2 = true
    · obtain ⟨es1, x, es2, ks1, c, ks2, e, -, hi, -, -, hx, e3, h1, h2⟩ := focus_eq hp hl hs hb
      rw [show locate p es = (es1.length, true) from Prod.ext hi.symm hb]
      dsimp only
      rw [e3, find_single hx h1 h2, e, get_mid]; rfl
    · have hb' : (locate p es).2 = false := by simpa using hb
      obtain ⟨es1, es2, ks1, c, ks2, e, e', hi, hl1, -, e3, h1, h2⟩ := focus hp hl hs hb'
      rw [show locate p es = (es1.length, false) from Prod.ext hi.symm hb']
      dsimp only
      rw [getAt_eq, ← hl1, e3, find_ctx h1 h2]
      rw [e'] at hk ⊢
      rw [get_mid]
      rw [e3] at hs
      exact ih (hk c (by simp)) (by decide) (sorted_kid hs)

theorem set_modify (es1 es2 : List (K × V)) (x : K × V) (g : V → V) :
    (es1 ++ x :: es2).set es1.length (x.1, g x.2) =
      (es1 ++ x :: es2).modify es1.length (fun e => (e.1, g e.2)) := by
  rw [set_mid, modify_mid]

/-- `get_mut` writes what the other B-tree's writes. -/
theorem getMut_eq {p : K → Ordering} (hp : IsProbe p) (g : V → V) :
    ∀ {h lo : Nat} {n : Node K V}, Ok MIN lo h n → 1 ≤ lo → Sorted n.toList →
      getMut lin p g n = some (n.getMut p g) := by
  intro h
  induction h with
  | zero =>
    intro lo n hn hlo1 hs
    obtain ⟨es, ks⟩ := n
    obtain ⟨rfl, hlo, -⟩ := hn
    simp only [toList_mk, inter_nil] at hs ⊢
    rw [getMut, Node.getMut, searchKeys_eq hp hs (by omega)]
    by_cases hb : (locate p es).2 = true
    · obtain ⟨es1, x, es2, e, hi, hx, h1, h2⟩ := focus_leaf_eq hp hs hb
      rw [show locate p es = (es1.length, true) from Prod.ext hi.symm hb]
      dsimp only; subst e
      rw [get_mid, if_pos rfl, Option.map_some, set_modify]
    · have hb' : (locate p es).2 = false := by simpa using hb
      obtain ⟨es1, es2, e, hi, h1, h2⟩ := focus_leaf hp hs hb'
      rw [show locate p es = (es1.length, false) from Prod.ext hi.symm hb']
      dsimp only
      rw [getMutAt_eq, Node.getMutAt_eq]; simp
  | succ h ih =>
    intro lo n hn hlo1 hs
    obtain ⟨es, ks⟩ := n
    obtain ⟨hl, hlo, -, hk⟩ := hn
    simp only [toList_mk] at hs ⊢
    rw [getMut, Node.getMut, searchKeys_eq hp (sorted_elems hs) (by omega)]
    by_cases hb : (locate p es).2 = true
    · obtain ⟨es1, x, es2, ks1, c, ks2, e, -, hi, -, -, hx, e3, h1, h2⟩ := focus_eq hp hl hs hb
      rw [show locate p es = (es1.length, true) from Prod.ext hi.symm hb]
      dsimp only
      rw [e, get_mid, if_pos rfl, Option.map_some, set_modify]
    · have hb' : (locate p es).2 = false := by simpa using hb
      have hle := locate_le p es
      obtain ⟨es1, es2, ks1, c, ks2, e, e', hi, hl1, -, e3, h1, h2⟩ := focus hp hl hs hb'
      rw [show locate p es = (es1.length, false) from Prod.ext hi.symm hb']
      dsimp only
      rw [getMutAt_eq, Node.getMutAt_eq, descIdx_branch hl (by omega)]
      have eget : ks[es1.length]? = some c := by rw [e', ← hl1, get_mid]
      rw [e3] at hs
      simp only [eget, Option.map_some, Bool.false_eq_true, if_false]
      rw [ih (hk c (by simp [e'])) (by decide) (sorted_kid hs)]
end

/-! ### Insertion -/

theorem absorb_leaf {lo : Nat} (kv : K × V) {es1 es2 : List (K × V)}
    (hlo : lo ≤ es1.length + es2.length) (hl : es1.length + es2.length ≤ MAX) :
    ∃ r, absorb es1.length none kv (es1 ++ es2) [] = some r ∧
      AbsOk MIN lo 0 (es1 ++ kv :: es2) r := by
  by_cases hm : es1.length + es2.length < MAX
  · refine ⟨.absorbed (mk (es1 ++ kv :: es2) []), ?_, ⟨rfl, ?_, ?_⟩, by simp⟩
    · rw [absorb, if_pos (by simpa using hm), insNoSplit, if_pos ⟨by simpa using hm, by simp, rfl⟩,
        ivInsert_eq kv hm]
    · simp; omega
    · simp; omega
  · have hm' : (es1 ++ es2).length = MAX := by simp; omega
    obtain ⟨div, e1, e2⟩ := insSplit_leaf (γ := Node K V) (idx := es1.length) kv hm' (by omega)
    have et : (es1 ++ es2).take es1.length ++ kv :: (es1 ++ es2).drop es1.length =
        es1 ++ kv :: es2 := by simp
    rw [et] at e1 e2
    have hlen : (es1 ++ kv :: es2).length = MAX + 1 := by simp at hm' ⊢; omega
    have hsp : splitAt es1.length = MIN ∨ splitAt es1.length = MIN + 1 := by
      unfold splitAt; split <;> simp
    refine ⟨.split (mk _ []) div (mk _ []), by rw [absorb, if_neg (by rw [hm']; omega), e2],
      ⟨rfl, ?_, ?_⟩, ⟨rfl, ?_, ?_⟩, ?_⟩
    · rw [List.length_take, hlen]; omega
    · rw [List.length_take, hlen]; omega
    · rw [List.length_drop, hlen]; omega
    · rw [List.length_drop, hlen]; omega
    · simp only [toList_mk, inter_nil]
      obtain ⟨h, rfl⟩ := List.getElem?_eq_some_iff.1 e1
      simp

theorem inter_split {ks : List (Node K V)} {es : List (K × V)} {m : Nat} {div : K × V}
    (hl : ks.length = es.length + 1) (hd : es[m]? = some div) :
    inter (ks.take (m + 1)) (es.take m) ++ div :: inter (ks.drop (m + 1)) (es.drop (m + 1)) =
      inter ks es := by
  obtain ⟨hm, rfl⟩ := List.getElem?_eq_some_iff.1 hd
  have e1 : inter (ks.take (m + 1)) (es.take m) =
      inter (ks.take m) (es.take m) ++ toList (ks[m]'(by omega)) := by
    have := inter_append (ks1 := ks.take m) (ks2 := [ks[m]'(by omega)]) (es1 := es.take m)
      (es2 := []) (by simp; omega)
    rw [List.take_succ_eq_append_getElem (by omega)]
    simpa [inter_cons] using this
  have e2 : inter ks es = inter (ks.take m) (es.take m) ++
      inter (ks[m]'(by omega) :: ks.drop (m + 1)) (es[m] :: es.drop (m + 1)) := by
    rw [← inter_append (by simp; omega)]
    simp
  rw [e1, e2, inter_cons, post_cons]; simp

theorem absorb_branch {lo h : Nat} {kv : K × V} {es1 es2 : List (K × V)} {ks1 ks2}
    {a c : Node K V} (h1 : ks1.length = es1.length) (h2 : ks2.length = es2.length)
    (hlo : lo ≤ es1.length + es2.length) (hl : es1.length + es2.length ≤ MAX)
    (hk1 : ∀ d ∈ ks1, Ok MIN MIN h d) (hk2 : ∀ d ∈ ks2, Ok MIN MIN h d) (ha : Ok MIN MIN h a)
    (hc : Ok MIN MIN h c) :
    ∃ r, absorb es1.length (some a) kv (es1 ++ es2) (ks1 ++ c :: ks2) = some r ∧
      AbsOk MIN lo (h + 1) (inter ks1 es1 ++ (toList a ++ kv :: toList c) ++ post es2 ks2) r := by
  have hne : (ks1 ++ c :: ks2).isEmpty = false := by cases ks1 <;> rfl
  have hall : ∀ d ∈ ks1 ++ a :: c :: ks2, Ok MIN MIN h d := by
    intro d hd
    simp only [List.mem_append, List.mem_cons] at hd
    rcases hd with hd | rfl | rfl | hd
    · exact hk1 d hd
    · exact ha
    · exact hc
    · exact hk2 d hd
  have hcont : inter (ks1 ++ a :: c :: ks2) (es1 ++ kv :: es2) =
      inter ks1 es1 ++ (toList a ++ kv :: toList c) ++ post es2 ks2 := by
    rw [inter_append h1, inter_cons, post_cons, inter_cons]; simp
  by_cases hm : es1.length + es2.length < MAX
  · refine ⟨.absorbed (mk (es1 ++ kv :: es2) (ks1 ++ a :: c :: ks2)), ?_,
      ⟨by simp; omega, ?_, ?_, hall⟩, ?_⟩
    · have e1 : kInsert es1.length a (ks1 ++ c :: ks2) = some (ks1 ++ a :: c :: ks2) := by
        rw [← h1]; exact kInsert_eq (by simp; omega)
      rw [absorb, if_pos (by simpa using hm), insNoSplit,
        if_pos ⟨by simpa using hm, by simp, by rw [hne]; rfl⟩, ivInsert_eq kv hm]
      simp only [e1]
    · simp; omega
    · simp; omega
    · rw [toList_mk, hcont]
  · have hm' : (es1 ++ es2).length = MAX := by simp; omega
    have hk' : (ks1 ++ c :: ks2).length = KIDS := by simp; omega
    obtain ⟨div, e1, e2⟩ := insSplit_branch (idx := es1.length) kv a hm' hk' (by omega)
    have et : (es1 ++ es2).take es1.length ++ kv :: (es1 ++ es2).drop es1.length =
        es1 ++ kv :: es2 := by simp
    have et' : (ks1 ++ c :: ks2).take es1.length ++ a :: (ks1 ++ c :: ks2).drop es1.length =
        ks1 ++ a :: c :: ks2 := by rw [← h1]; simp
    rw [et] at e1
    rw [et, et'] at e2
    have hlen : (es1 ++ kv :: es2).length = MAX + 1 := by simp at hm' ⊢; omega
    have hlenk : (ks1 ++ a :: c :: ks2).length = MAX + 2 := by simp at hk' ⊢; omega
    have hsp : splitAt es1.length = MIN ∨ splitAt es1.length = MIN + 1 := by
      unfold splitAt; split <;> simp
    refine ⟨.split (mk _ _) div (mk _ _), by rw [absorb, if_neg (by rw [hm']; omega), e2],
      ⟨?_, ?_, ?_, fun d hd => hall d (List.mem_of_mem_take hd)⟩,
      ⟨?_, ?_, ?_, fun d hd => hall d (List.mem_of_mem_drop hd)⟩, ?_⟩
    · rw [List.length_take, List.length_take, hlen, hlenk]; omega
    · rw [List.length_take, hlen]; omega
    · rw [List.length_take, hlen]; omega
    · rw [List.length_drop, List.length_drop, hlen, hlenk]; omega
    · rw [List.length_drop, hlen]; omega
    · rw [List.length_drop, hlen]; omega
    · simp only [toList_mk]
      rw [inter_split (by rw [hlen, hlenk]) e1, hcont]

theorem ins_spec [Ord K] [TransOrd K] {lin : Bool} (k : K) (v : V) :
    ∀ {h lo : Nat} {n : Node K V}, Ok MIN lo h n → 1 ≤ lo → Sorted n.toList →
      ∃ r, ins lin k v n = some r ∧ InsOk MIN lo h k v n.toList r := by
  have hp := isProbe_compare k
  intro h
  induction h with
  | zero =>
    intro lo n hn hlo1 hs
    obtain ⟨es, ks⟩ := n
    obtain ⟨rfl, hlo, hhi⟩ := hn
    simp only [toList_mk, inter_nil] at hs ⊢
    rw [ins, searchKeys_eq hp hs (by omega)]
    by_cases hb : (locate (compare k) es).2 = true
    · obtain ⟨es1, x, es2, e, hi, hx, h1, h2⟩ := focus_leaf_eq hp hs hb
      rw [show locate (compare k) es = (es1.length, true) from Prod.ext hi.symm hb]
      dsimp only; subst e
      rw [get_mid]
      dsimp only
      rw [set_mid]
      refine ⟨_, rfl, ⟨rfl, by simpa using hlo, by simpa using hhi⟩, ?_, ?_⟩
      · rw [insert_ctx_eq hx h1 h2]; simp
      · rw [find_single hx h1 h2]; rfl
    · have hb' : (locate (compare k) es).2 = false := by simpa using hb
      obtain ⟨es1, es2, e, hi, h1, h2⟩ := focus_leaf hp hs hb'
      rw [show locate (compare k) es = (es1.length, false) from Prod.ext hi.symm hb']
      dsimp only
      rw [insAt_eq]; subst e
      simp only [List.getElem?_nil, Option.map_none]
      obtain ⟨r, e, hr⟩ := absorb_leaf (lo := lo) (k, v) (es1 := es1) (es2 := es2)
        (by simpa using hlo) (by simpa using hhi)
      have e1 := insert_ctx (c := []) (v := v) h1 h2
      have e2 := find_ctx (c := []) h1 h2
      simp only [List.append_nil] at e1 e2
      refine ⟨r, e, .of_abs ?_ ?_⟩
      · rw [e1]; simpa [Spec.insert] using hr
      · rw [e2]; rfl
  | succ h ih =>
    intro lo n hn hlo1 hs
    obtain ⟨es, ks⟩ := n
    obtain ⟨hl, hlo, hhi, hk⟩ := hn
    simp only [toList_mk] at hs ⊢
    rw [ins, searchKeys_eq hp (sorted_elems hs) (by omega)]
    by_cases hb : (locate (compare k) es).2 = true
    · obtain ⟨es1, x, es2, ks1, c, ks2, e, e', hi, hl1, -, hx, e3, h1, h2⟩ := focus_eq hp hl hs hb
      rw [show locate (compare k) es = (es1.length, true) from Prod.ext hi.symm hb]
      dsimp only
      rw [e3]; subst e; subst e'
      rw [get_mid]
      dsimp only
      rw [set_mid]
      refine ⟨_, rfl, ⟨by simpa using hl, by simpa using hlo, by simpa using hhi, hk⟩, ?_, ?_⟩
      · rw [insert_ctx_eq hx h1 h2, toList_mk, inter_append hl1, inter_cons]; simp
      · rw [find_single hx h1 h2]; rfl
    · have hb' : (locate (compare k) es).2 = false := by simpa using hb
      obtain ⟨es1, es2, ks1, c, ks2, e, e', hi, hl1, hl2, e3, h1, h2⟩ := focus hp hl hs hb'
      rw [show locate (compare k) es = (es1.length, false) from Prod.ext hi.symm hb']
      dsimp only
      rw [insAt_eq, e3]
      have hk1 : ∀ d ∈ ks1, Ok MIN MIN h d := fun d hd => hk d (by simp [e', hd])
      have hk2 : ∀ d ∈ ks2, Ok MIN MIN h d := fun d hd => hk d (by simp [e', hd])
      have hkc : Ok MIN MIN h c := hk c (by simp [e'])
      rw [e3] at hs
      obtain ⟨r, er, hr⟩ := ih hkc (by decide) (sorted_kid hs)
      have eget : ks[es1.length]? = some c := by rw [e', ← hl1, get_mid]
      have eset : ∀ d, ks.set es1.length d = ks1 ++ d :: ks2 := by
        intro d; rw [e', ← hl1, set_mid]
      have hlo' : lo ≤ es1.length + es2.length := by rw [e] at hlo; simpa using hlo
      have hhi' : es1.length + es2.length ≤ MAX := by rw [e] at hhi; simpa using hhi
      have hbody : ∀ d, Ok MIN MIN h d → Ok MIN lo (h + 1) (mk (es1 ++ es2) (ks1 ++ d :: ks2)) := by
        intro d hd
        refine ⟨by simp; omega, by simpa using hlo', by simpa using hhi', ?_⟩
        intro x hx
        simp only [List.mem_append, List.mem_cons] at hx
        rcases hx with hx | rfl | hx
        · exact hk1 x hx
        · exact hd
        · exact hk2 x hx
      have htl : ∀ d : Node K V, toList (mk (es1 ++ es2) (ks1 ++ d :: ks2)) =
          inter ks1 es1 ++ toList d ++ post es2 ks2 := by
        intro d; rw [toList_mk, inter_append hl1, inter_cons, List.append_assoc]
      simp only [eget, Option.map_some, er, eset]
      rw [e]
      cases r with
      | replaced o c' =>
        obtain ⟨r1, r2, r3⟩ := hr
        refine ⟨_, rfl, hbody _ r1, ?_, ?_⟩
        · rw [htl, r2, insert_ctx h1 h2]
        · rw [find_ctx h1 h2]; exact r3
      | absorbed c' =>
        obtain ⟨⟨r1, r2⟩, r3⟩ := hr
        refine ⟨_, rfl, ⟨hbody _ r1, ?_⟩, ?_⟩
        · rw [htl, r2, insert_ctx h1 h2]
        · rw [find_ctx h1 h2]; exact r3
      | split a kv c' =>
        obtain ⟨⟨r1, r2, r4⟩, r3⟩ := hr
        obtain ⟨r, e, hr⟩ := absorb_branch (lo := lo) (kv := kv) hl1 hl2 hlo' hhi' hk1 hk2 r1 r2
        refine ⟨r, e, .of_abs ?_ ?_⟩
        · rw [r4] at hr; rw [insert_ctx h1 h2]; exact hr
        · rw [find_ctx h1 h2]; exact r3

/-! ### Rebalancing does what the other B-tree's does -/

theorem Body.kids_len {h : Nat} {es : List (K × V)} {ks : List (Node K V)} (hb : Body MIN h es ks)
    (hh : 0 < h) : ks.length = es.length + 1 := by
  cases h with
  | zero => omega
  | succ h => exact hb.1

theorem Body.nil {es : List (K × V)} {ks : List (Node K V)} (hb : Body MIN 0 es ks) : ks = [] := hb

section
variable {h a b : Nat} {es1 es2 : List (K × V)} {ks1 ks2 : List (Node K V)}
    {x : K × V} {l r : Node K V}

theorem rotRt_eq (h1 : ks1.length = es1.length) (hl : Ok MIN a h l) (hr : Ok MIN b h r)
    (hll : MIN < l.elems.length) (hle : r.elems.length ≤ 2 * MIN) :
    rotRt es1.length (es1 ++ x :: es2) (ks1 ++ l :: r :: ks2) =
      Node.rotRt MIN es1.length (es1 ++ x :: es2) (ks1 ++ l :: r :: ks2) := by
  obtain ⟨les, lks⟩ := l
  obtain ⟨res, rks⟩ := r
  simp only [elems] at hle hll
  obtain ⟨les', y, rfl⟩ := concat_of_pos les (by omega)
  have bl := (ok_iff.1 hl).1
  have hlhi := (ok_iff.1 hl).2.2
  have br := (ok_iff.1 hr).1
  simp only [List.length_append, List.length_cons, List.length_nil] at hll hlhi
  have e1 : (ks1 ++ mk (les' ++ [y]) lks :: mk res rks :: ks2)[es1.length]? =
      some (mk (les' ++ [y]) lks) := by rw [← h1, get_mid]
  have e2 : (ks1 ++ mk (les' ++ [y]) lks :: mk res rks :: ks2)[es1.length + 1]? =
      some (mk res rks) := by rw [← h1, get_mid1]
  have hn : ¬ ((les' ++ [y]).length ≤ MIN) := by simp; omega
  have hp : ivPop MAX (les' ++ [y]) = some (y, les') := ivPop_eq (by omega)
  have hi : ivInsert MAX 0 x res = some (x :: res) := by
    simpa using ivInsert_eq (l1 := []) (l2 := res) (N := MAX) x (by simp; omega)
  obtain ⟨c, lks', ht, hi', ec, el⟩ : ∃ c lks', takeLast lks = some (c, lks') ∧
      insKid0 c rks = some (c.toList ++ rks) ∧ c = lks.getLast? ∧ lks' = lks.dropLast := by
    cases h with
    | zero =>
      rw [Body.nil bl, Body.nil br]
      exact ⟨none, [], rfl, rfl, rfl, rfl⟩
    | succ h =>
      have h3 := Body.kids_len bl (by omega)
      have h4 := Body.kids_len br (by omega)
      simp only [List.length_append, List.length_cons, List.length_nil] at h3
      obtain ⟨lks', z, rfl⟩ := concat_of_pos lks (by omega)
      have hne : (lks' ++ [z]).isEmpty = false := by cases lks' <;> rfl
      have hne2 : rks.isEmpty = false := by cases rks <;> simp_all
      simp only [List.length_append, List.length_cons, List.length_nil] at h3
      refine ⟨some z, lks', ?_, ?_, by simp, by simp⟩
      · rw [takeLast, hne, kPop_eq (by omega)]; rfl
      · have := kInsert_eq (l1 := []) (l2 := rks) (c := z) (by simp; omega)
        simp only [List.length_nil, List.nil_append] at this
        simp [insKid0, hne2, this]
  subst ec; subst el
  simp only [rotRt, Node.rotRt, e1, e2, if_neg hn, hp, ht, hi, hi', vPop_concat, get_mid,
    Option.bind_eq_bind, Option.bind_some, Option.pure_def]

theorem rotLf_eq (h1 : ks1.length = es1.length) (hl : Ok MIN a h l) (hr : Ok MIN b h r)
    (hrr : MIN < r.elems.length) (hle : l.elems.length < MIN) :
    rotLf es1.length (es1 ++ x :: es2) (ks1 ++ l :: r :: ks2) =
      Node.rotLf MIN es1.length (es1 ++ x :: es2) (ks1 ++ l :: r :: ks2) := by
  obtain ⟨les, lks⟩ := l
  obtain ⟨res, rks⟩ := r
  simp only [elems] at hle hrr
  have bl := (ok_iff.1 hl).1
  have br := (ok_iff.1 hr).1
  have hrhi := (ok_iff.1 hr).2.2
  cases res with
  | nil => simp at hrr
  | cons y res' =>
  simp only [List.length_cons] at hrr hrhi
  have e1 : (ks1 ++ mk les lks :: mk (y :: res') rks :: ks2)[es1.length]? =
      some (mk les lks) := by rw [← h1, get_mid]
  have e2 : (ks1 ++ mk les lks :: mk (y :: res') rks :: ks2)[es1.length + 1]? =
      some (mk (y :: res') rks) := by rw [← h1, get_mid1]
  have hn : ¬ ((y :: res').length ≤ MIN) := by simp; omega
  have hn2 : ¬ (MIN ≤ les.length) := by omega
  have e5 : vRemove 0 (y :: res') = some (y, res') := by simp [vRemove]
  have e6 : ivRemove MAX 0 (y :: res') = some (y, res') := by
    simpa using ivRemove_eq (l1 := []) (l2 := res') (N := MAX) (kv := y) (by simp; omega)
  have e7 : ivPush MAX x les = some (les ++ [x]) := ivPush_eq x (by omega)
  obtain ⟨c, rks', ht, hi', ec, el⟩ : ∃ c rks', takeFirst rks = some (c, rks') ∧
      pushKid c lks = some (lks ++ c.toList) ∧ c = rks.head? ∧ rks' = rks.tail := by
    cases h with
    | zero =>
      rw [Body.nil bl, Body.nil br]
      exact ⟨none, [], rfl, rfl, rfl, rfl⟩
    | succ h =>
      have h3 := Body.kids_len bl (by omega)
      have h4 := Body.kids_len br (by omega)
      simp only [List.length_cons] at h4
      cases rks with
      | nil => simp at h4
      | cons z rks' =>
      have hne : lks.isEmpty = false := by cases lks <;> simp_all
      simp only [List.length_cons] at h4
      refine ⟨some z, rks', ?_, ?_, rfl, rfl⟩
      · have := kRemove_eq (l1 := []) (l2 := rks') (c := z) (by simp; omega)
        simp only [List.length_nil, List.nil_append] at this
        simp [takeFirst, this]
      · rw [pushKid]; simp only [hne, Bool.false_eq_true, if_false]
        exact kPush_eq (by omega)
  subst ec; subst el
  simp only [rotLf, Node.rotLf, e1, e2, e5, e6, e7, if_neg hn, if_neg hn2, ht, hi', get_mid,
    Option.bind_eq_bind, Option.bind_some, Option.pure_def]

theorem mergeKids_eq (h1 : ks1.length = es1.length) (h2 : ks2.length = es2.length)
    (hes : es1.length + es2.length + 1 ≤ 2 * MIN + 1) (hl : Ok MIN a h l) (hr : Ok MIN b h r)
    (hle : l.elems.length + 1 + r.elems.length ≤ 2 * MIN + 1) :
    mergeKids es1.length (es1 ++ x :: es2) (ks1 ++ l :: r :: ks2) =
      Node.mergeKids es1.length (es1 ++ x :: es2) (ks1 ++ l :: r :: ks2) := by
  obtain ⟨les, lks⟩ := l
  obtain ⟨res, rks⟩ := r
  simp only [elems] at hle
  have bl := (ok_iff.1 hl).1
  have br := (ok_iff.1 hr).1
  have hne : (ks1 ++ mk les lks :: mk res rks :: ks2).isEmpty = false := by cases ks1 <;> rfl
  have e0 : kRemove (es1.length + 1) (ks1 ++ mk les lks :: mk res rks :: ks2) =
      some (mk res rks, ks1 ++ mk les lks :: ks2) := by
    have := kRemove_eq (l1 := ks1 ++ [mk les lks]) (l2 := ks2) (c := mk res rks)
      (by simp; omega)
    rw [show (ks1 ++ [mk les lks]).length = es1.length + 1 by simp [h1]] at this
    simpa using this
  have e1 : vRemove es1.length (ks1 ++ mk les lks :: mk res rks :: ks2) =
      some (mk les lks, ks1 ++ mk res rks :: ks2) := by rw [← h1, vRemove_mid]
  have e2 : (ks1 ++ mk res rks :: ks2)[es1.length]? = some (mk res rks) := by
    rw [← h1, get_mid]
  have e2' : (ks1 ++ mk les lks :: ks2)[es1.length]? = some (mk les lks) := by
    rw [← h1, get_mid]
  have e3 : ∀ c d, (ks1 ++ c :: ks2).set es1.length d = ks1 ++ d :: ks2 := by
    intro c d; rw [← h1, set_mid]
  have e4 : ivRemove MAX es1.length (es1 ++ x :: es2) = some (x, es1 ++ es2) :=
    ivRemove_eq (by omega)
  have e5 : ivPush MAX x les = some (les ++ [x]) := ivPush_eq x (by omega)
  have e6 : ivAppend MAX (les ++ [x]) res = some (les ++ x :: res) := by
    rw [ivAppend_eq (by simp; omega)]; simp
  have e7 : joinKids lks rks = some (lks ++ rks) := by
    cases h with
    | zero => rw [Body.nil bl, Body.nil br]; rfl
    | succ h =>
      have h3 := Body.kids_len bl (by omega)
      have h4 := Body.kids_len br (by omega)
      have hne : lks.isEmpty = false := by cases lks <;> simp_all
      have hne' : rks.isEmpty = false := by cases rks <;> simp_all
      simp only [joinKids, hne, hne', Bool.false_eq_true, if_false]
      exact kAppend_eq (by omega)
  simp only [mergeKids, Node.mergeKids, hne, Bool.false_eq_true, if_false, e0, e1, e2, e2', e3, e4,
    e5, e6, e7, vRemove_mid, Option.bind_eq_bind, Option.bind_some, Option.pure_def]
end

theorem rebal_eq {h : Nat} {es1 es2 : List (K × V)} {ks1 ks2 : List (Node K V)}
    {c : Node K V} (h1 : ks1.length = es1.length) (h2 : ks2.length = es2.length)
    (hpos : 1 ≤ es1.length + es2.length) (hes : es1.length + es2.length ≤ 2 * MIN + 1)
    (hk1 : ∀ d ∈ ks1, Ok MIN MIN h d) (hk2 : ∀ d ∈ ks2, Ok MIN MIN h d)
    (hc : Ok MIN (MIN - 1) h c) (hlt : c.elems.length < MIN) :
    rebal es1.length (es1 ++ es2) (ks1 ++ c :: ks2) =
      Node.rebal MIN es1.length (es1 ++ es2) (ks1 ++ c :: ks2) := by
  have hc1 := hc.lo_le
  have hne : (ks1 ++ c :: ks2).isEmpty = false := by cases ks1 <;> rfl
  have hkl : kidLen (ks1 ++ c :: ks2) es1.length = some (MIN - 1) := by
    rw [kidLen, ← h1, get_mid]; exact congrArg some (by show c.elems.length = _; omega)
  rw [rebal, Node.rebal, hne]
  simp only [Bool.false_eq_true, if_false, hkl, ne_eq, not_true]
  by_cases h0 : 0 < es1.length
  · rw [if_pos h0, if_pos h0]
    obtain ⟨es0, x, rfl⟩ := concat_of_pos es1 h0
    obtain ⟨ks0, l, rfl⟩ := concat_of_pos ks1 (by omega)
    simp only [List.length_append, List.length_cons, List.length_nil] at h1 hes hpos
    have hl : Ok MIN MIN h l := hk1 l (by simp)
    have hl1 := hl.lo_le
    have hl2 := hl.le_hi
    have e0 : ks0 ++ [l] ++ c :: ks2 = ks0 ++ l :: c :: ks2 := by simp
    have e1 : es0 ++ [x] ++ es2 = es0 ++ x :: es2 := by simp
    have e2 : (es0 ++ [x]).length - 1 = es0.length := by simp
    have e3 : kidLen (ks0 ++ l :: c :: ks2) es0.length = some l.elems.length := by
      rw [kidLen, show es0.length = ks0.length by omega, get_mid]; rfl
    rw [e0, e1, e2, e3]
    dsimp only
    by_cases hg : MIN + 1 < l.elems.length
    · rw [if_pos hg, if_pos (by omega)]
      exact rotRt_eq (by omega) hl hc (by omega) (by omega)
    · rw [if_neg hg, if_neg (by omega)]
      exact mergeKids_eq (by omega) h2 (by omega) hl hc (by omega)
  · rw [if_neg h0, if_neg h0]
    have e0 : es1 = [] := List.length_eq_zero_iff.1 (by omega)
    have e0' : ks1 = [] := List.length_eq_zero_iff.1 (by omega)
    subst e0; subst e0'
    simp only [List.length_nil, Nat.zero_add, List.nil_append] at hes hpos ⊢
    cases es2 with
    | nil => simp at hpos
    | cons x es2 =>
    cases ks2 with
    | nil => simp at h2
    | cons r ks2 =>
    simp only [List.length_cons, Nat.add_right_cancel_iff] at h2 hes
    have hr : Ok MIN MIN h r := hk2 r (by simp)
    have hr1 := hr.lo_le
    have hr2 := hr.le_hi
    have e3 : kidLen (c :: r :: ks2) 1 = some r.elems.length := by simp [kidLen]
    rw [e3]
    dsimp only
    by_cases hg : MIN + 1 < r.elems.length
    · rw [if_pos hg, if_pos (by omega)]
      simpa using rotLf_eq (es1 := []) (es2 := es2) (ks1 := []) (ks2 := ks2) (x := x) rfl hc hr
        (by omega) (by omega)
    · rw [if_neg hg, if_neg (by omega)]
      simpa using mergeKids_eq (es1 := []) (ks1 := []) (x := x) rfl h2 (by simp; omega) hc hr
        (by omega)

theorem afterKid_eq {h lo : Nat} {es1 es2 : List (K × V)} {ks1 ks2 : List (Node K V)}
    {c : Node K V} {b : Bool} (kv : K × V) (hlo1 : 1 ≤ lo)
    (h1 : ks1.length = es1.length) (h2 : ks2.length = es2.length)
    (hlo : lo ≤ es1.length + es2.length) (hes : es1.length + es2.length ≤ 2 * MIN + 1)
    (hk1 : ∀ d ∈ ks1, Ok MIN MIN h d) (hk2 : ∀ d ∈ ks2, Ok MIN MIN h d)
    (hc : RemShape MIN MIN h b c) :
    afterKid es1.length kv b (es1 ++ es2) (ks1 ++ c :: ks2) =
      Node.afterKid MIN es1.length kv b (es1 ++ es2) (ks1 ++ c :: ks2) := by
  cases b with
  | false => rfl
  | true =>
    obtain ⟨hc1, hc2⟩ := hc
    simp only [afterKid, Node.afterKid, if_true]
    rw [rebal_eq h1 h2 (by omega) hes hk1 hk2 hc1 hc2]

theorem popGreatest_eq :
    ∀ {h lo : Nat} {n : Node K V}, Ok MIN lo h n → 1 ≤ lo → lo ≤ MIN →
      popGreatest n = Node.popLast MIN n := by
  intro h
  induction h with
  | zero =>
    intro lo n hn hlo1 hloN
    obtain ⟨es, ks⟩ := n
    obtain ⟨rfl, hlo, hhi⟩ := hn
    obtain ⟨es, e, rfl⟩ := concat_of_pos es (by omega)
    simp only [List.length_append, List.length_cons, List.length_nil] at hlo hhi
    rw [popGreatest, popLast, popGreatestAt, popLastAt]
    simp only [ivPop_eq (show es.length < MAX by omega), vPop_concat]
  | succ h ih =>
    intro lo n hn hlo1 hloN
    obtain ⟨es, ks⟩ := n
    obtain ⟨hl, hlo, hhi, hk⟩ := hn
    obtain ⟨ks, c, rfl⟩ := concat_of_pos ks (by omega)
    simp only [List.length_append, List.length_cons, List.length_nil] at hl
    have hc := hk c (by simp)
    obtain ⟨kv, b, c', e, hs, ht⟩ := popLast_spec (by decide) hc (by decide) (Nat.le_refl MIN)
    rw [popGreatest, popLast, popGreatestAt_eq, popLastAt_eq]
    have e3 : (ks ++ [c]).length - 1 = ks.length := by simp
    simp only [List.getLast?_append, List.getLast?_singleton, Option.some_or, Option.map_some,
      ih hc (by decide) (Nat.le_refl MIN), e, e3, set_mid]
    have := afterKid_eq (es1 := es) (ks1 := ks) (es2 := []) (ks2 := []) kv hlo1 (by omega) rfl
      (by simpa using hlo) (by simpa using hhi) (fun d hd => hk d (by simp [hd])) (by simp) hs
    simpa using this

section
variable [Ord K] [TransOrd K] {lin : Bool}

theorem remove_eq {p : K → Ordering} (hp : IsProbe p) :
    ∀ {h lo : Nat} {n : Node K V}, Ok MIN lo h n → 1 ≤ lo → lo ≤ MIN → Sorted n.toList →
      remove lin p n = Node.remove MIN p n := by
  intro h
  induction h with
  | zero =>
    intro lo n hn hlo1 hloN hs
    obtain ⟨es, ks⟩ := n
    obtain ⟨rfl, hlo, hhi⟩ := hn
    simp only [toList_mk, inter_nil] at hs ⊢
    rw [remove, Node.remove, searchKeys_eq hp hs (by omega)]
    by_cases hb : (locate p es).2 = true
    · obtain ⟨es1, x, es2, e, hi, hx, h1, h2⟩ := focus_leaf_eq hp hs hb
      rw [show locate p es = (es1.length, true) from Prod.ext hi.symm hb]
      subst e
      simp only [List.length_append, List.length_cons] at hlo hhi
      simp only [List.isEmpty_nil, if_true, vRemove_mid,
        ivRemove_eq (N := MAX) (l1 := es1) (l2 := es2) (kv := x) (by omega)]
    · have hb' : (locate p es).2 = false := by simpa using hb
      obtain ⟨es1, es2, e, hi, h1, h2⟩ := focus_leaf hp hs hb'
      rw [show locate p es = (es1.length, false) from Prod.ext hi.symm hb']
      simp only [removeAt_eq, Node.removeAt_eq, List.getElem?_nil, Option.map_none,
        Bool.false_eq_true, if_false]
  | succ h ih =>
    intro lo n hn hlo1 hloN hs
    obtain ⟨es, ks⟩ := n
    obtain ⟨hl, hlo, hhi, hk⟩ := hn
    simp only [toList_mk] at hs ⊢
    rw [remove, Node.remove, searchKeys_eq hp (sorted_elems hs) (by omega)]
    have hne : ks.isEmpty = false := by cases ks <;> simp_all
    by_cases hb : (locate p es).2 = true
    · obtain ⟨es1, x, es2, ks1, c, ks2, e, e', hi, hl1, hl2, hx, e3, h1, h2⟩ :=
        focus_eq hp hl hs hb
      rw [show locate p es = (es1.length, true) from Prod.ext hi.symm hb, hne, popLastKid_eq]
      dsimp only
      rw [popGreatestKid_eq]
      subst e'
      have hk1 : ∀ d ∈ ks1, Ok MIN MIN h d := fun d hd => hk d (by simp [hd])
      have hk2 : ∀ d ∈ ks2, Ok MIN MIN h d := fun d hd => hk d (by simp [hd])
      have hkc := hk c (by simp)
      obtain ⟨kv, b, c', ep, hps, hpt⟩ := popLast_spec (by decide) hkc (by decide) (Nat.le_refl MIN)
      have eget : (ks1 ++ c :: ks2)[es1.length]? = some c := by rw [← hl1, get_mid]
      have eset : ∀ d, (ks1 ++ c :: ks2).set es1.length d = ks1 ++ d :: ks2 := by
        intro d; rw [← hl1, set_mid]
      subst e
      simp only [List.length_append, List.length_cons] at hlo hhi
      have := afterKid_eq (es1 := es1) (ks1 := ks1) (es2 := kv :: es2) (lo := lo)
        (ks2 := ks2) x hlo1 hl1 (by simpa using hl2) (by simp; omega) (by simp; omega)
        hk1 hk2 hps
      simp only [Bool.false_eq_true, if_false, if_true, eget, Option.map_some,
        popGreatest_eq hkc (by decide) (Nat.le_refl MIN), ep, get_mid, eset, set_mid, this]
    · have hb' : (locate p es).2 = false := by simpa using hb
      have hle := locate_le p es
      obtain ⟨es1, es2, ks1, c, ks2, e, e', hi, hl1, hl2, e3, h1, h2⟩ := focus hp hl hs hb'
      rw [show locate p es = (es1.length, false) from Prod.ext hi.symm hb']
      simp only [Bool.false_eq_true, if_false]
      rw [removeAt_eq, Node.removeAt_eq, descIdx_branch hl (by omega)]
      have hk1 : ∀ d ∈ ks1, Ok MIN MIN h d := fun d hd => hk d (by simp [e', hd])
      have hk2 : ∀ d ∈ ks2, Ok MIN MIN h d := fun d hd => hk d (by simp [e', hd])
      have hkc := hk c (by simp [e'])
      have eget : ks[es1.length]? = some c := by rw [e', ← hl1, get_mid]
      have eset : ∀ d, ks.set es1.length d = ks1 ++ d :: ks2 := by
        intro d; rw [e', ← hl1, set_mid]
      rw [e3] at hs
      have hih := ih hkc (by decide) (Nat.le_refl MIN) (sorted_kid hs)
      obtain ⟨r, er, hr⟩ := remove_spec hp (by decide) hkc (by decide) (Nat.le_refl MIN) (sorted_kid hs)
      simp only [eget, Option.map_some, hih, er, eset]
      rw [RemOk] at hr
      cases hf : Spec.find p (toList c) with
      | none =>
        rw [hf] at hr
        dsimp only at hr
        subst hr
        rfl
      | some x =>
        rw [hf] at hr
        obtain ⟨b, c', rfl, hs', ht'⟩ := hr
        rw [e] at hlo hhi
        simp only [List.length_append] at hlo hhi
        have := afterKid_eq (es1 := es1) (ks1 := ks1) (es2 := es2) (lo := lo)
          (ks2 := ks2) x hlo1 hl1 hl2 hlo hhi hk1 hk2 hs'
        simp only [e, this]
end

/-! ### The map -/

namespace FMap

/-- In-order contents. -/
def toList (m : FMap K V) : List (K × V) :=
  match m.root with
  | none => []
  | some n => n.toList

/-- The part of the representation invariant that does not depend on the order of the keys:
exact `len`, every node except the root has 5 to 11 elements (the root 1 to 11), all leaves
are at the same depth. -/
structure Inv (m : FMap K V) : Prop where
  len : m.len = m.toList.length
  shape : ∀ n, m.root = some n → ∃ h, Ok MIN 1 h n

theorem inv_some {n : Node K V} {h len : Nat} (h1 : Ok MIN 1 h n) (h3 : len = n.toList.length) :
    (⟨some n, len⟩ : FMap K V).Inv :=
  ⟨h3, by rintro n' e; cases e; exact ⟨h, h1⟩⟩

theorem rmAndRebal_inv {m : FMap K V} {L : List (K × V)} (hL : m.len = L.length)
    {kv : K × V} {b : Bool} {n' : Node K V} {ht : Nat} (hshape : RemShape MIN 1 ht b n')
    (hlen : n'.toList.length + 1 = L.length) :
    ∃ m', m.rmAndRebal (some (some (kv, b, n'))) = some (m', some kv) ∧ m'.Inv ∧
      m'.toList = n'.toList := by
  have h0 : m.len ≠ 0 := by omega
  unfold rmAndRebal
  dsimp only
  rw [if_neg h0]
  unfold RemShape at hshape
  cases b with
  | false =>
    simp only [Bool.false_eq_true, if_false] at hshape
    exact ⟨⟨some n', m.len - 1⟩, by simp, inv_some hshape (by omega), rfl⟩
  | true =>
    simp only [if_true] at hshape
    obtain ⟨hok, -⟩ := hshape
    by_cases hem : n'.elems = []
    · obtain ⟨es, ks⟩ := n'
      simp only [elems] at hem
      subst hem
      cases ht with
      | zero =>
        obtain ⟨rfl, -, -⟩ := hok
        refine ⟨⟨none, m.len - 1⟩, by simp, ⟨?_, by simp⟩, by simp [toList]⟩
        simp at hlen; simp [toList]; omega
      | succ ht =>
        obtain ⟨hk, -, -, hkk⟩ := hok
        match ks, hk with
        | [c], _ =>
          have hc : Node.toList (Node.mk [] [c]) = Node.toList c := by simp [inter_cons]
          rw [hc] at hlen ⊢
          have hp : kPop [c] = some (c, []) := kPop_eq (l := []) (by simp)
          refine ⟨⟨some c, m.len - 1⟩, by simp [hp], ?_, rfl⟩
          exact inv_some ((hkk c (by simp)).mono (by
            have := (hkk c (by simp)).lo_le; omega)) (by omega)
    · have : n'.elems.isEmpty = false := by simpa using hem
      refine ⟨⟨some n', m.len - 1⟩, by rw [this]; simp, ?_, rfl⟩
      exact inv_some (hok.mono (List.length_pos_iff.2 hem)) (by omega)

variable [Ord K] [TransOrd K] {lin : Bool}

/-- Representation invariant: strictly sorted, exact `len`, and every node except the root
has 5 to 11 elements (the root 1 to 11), all leaves at the same depth. -/
structure WF (m : FMap K V) : Prop where
  sorted : Sorted m.toList
  len : m.len = m.toList.length
  shape : ∀ n, m.root = some n → ∃ h, Ok MIN 1 h n

theorem WF.inv {m : FMap K V} (h : m.WF) : m.Inv := ⟨h.len, h.shape⟩

theorem Inv.wf {m : FMap K V} (h : m.Inv) (hs : Sorted m.toList) : m.WF := ⟨hs, h.len, h.shape⟩

theorem wf_new : (new : FMap K V).WF :=
  ⟨by simp [new, toList, Sorted], rfl, by simp [new]⟩

theorem get_spec {m : FMap K V} (hm : m.WF) {p : K → Ordering} (hp : IsProbe p) :
    m.get lin p = some ((Spec.find p m.toList).map (·.2)) := by
  obtain ⟨root, len⟩ := m
  cases root with
  | none => rfl
  | some n =>
    obtain ⟨h, hn⟩ := hm.shape n rfl
    have := get_eq (lin := lin) hp hn (Nat.le_refl 1) hm.sorted
    simp [get, this, toList]

theorem getMut_spec {m : FMap K V} (hm : m.WF) {p : K → Ordering} (hp : IsProbe p) (g : V → V) :
    ∃ m', m.getMut lin p g = some (m', (Spec.find p m.toList).isSome) ∧ m'.WF ∧
      m'.toList = updAt p g m.toList ∧ m'.len = m.len := by
  obtain ⟨root, len⟩ := m
  cases root with
  | none => exact ⟨_, rfl, hm, rfl, rfl⟩
  | some n =>
    obtain ⟨h, hn⟩ := hm.shape n rfl
    have e := getMut_eq (lin := lin) hp g hn (Nat.le_refl 1) hm.sorted
    obtain ⟨i1, i2, i3⟩ := Node.getMut_spec hp g hn hm.sorted
    have hl := hm.len
    have hs := hm.sorted
    refine ⟨⟨some (n.getMut p g).1, len⟩, ?_, ⟨?_, ?_, ?_⟩, i2, rfl⟩
    · simp [getMut, e, i3, toList]
    · simp only [toList] at hs ⊢
      rw [i2]
      unfold Sorted updAt
      rw [List.pairwise_map]
      refine hs.imp (fun {a b} h => ?_)
      split <;> split <;> exact h
    · simp only [toList] at hl ⊢
      rw [i2, hl, updAt, List.length_map]
    · rintro n' e'
      simp only [Option.some.injEq] at e'
      exact ⟨h, e' ▸ i1⟩

theorem wf_some {n : Node K V} {h len : Nat} (h1 : Ok MIN 1 h n) (h2 : Sorted n.toList)
    (h3 : len = n.toList.length) : (⟨some n, len⟩ : FMap K V).WF :=
  ⟨h2, h3, by rintro n' e; cases e; exact ⟨h, h1⟩⟩

theorem insert_spec {m : FMap K V} (hm : m.WF) (k : K) (v : V) :
    ∃ m', m.insert lin k v = some (m', (Spec.find (compare k) m.toList).map (·.2)) ∧ m'.WF ∧
      m'.toList = Spec.insert k v m.toList := by
  obtain ⟨root, len⟩ := m
  unfold insert
  cases root with
  | none =>
    have e : ivPush MAX (k, v) [] = some [(k, v)] := ivPush_eq (l := []) (k, v) (by simp)
    simp only [e]
    refine ⟨_, rfl, ?_, ?_⟩
    · exact wf_some (h := 0) ⟨rfl, by simp, by simp⟩ (by simp [Sorted]) (by simp)
    · simp [toList, Spec.insert]
  | some n =>
    obtain ⟨ht, h1⟩ := hm.shape n rfl
    have hs : Sorted n.toList := hm.sorted
    have hl : len = n.toList.length := hm.len
    obtain ⟨r, er, hi⟩ := ins_spec (lin := lin) k v h1 (Nat.le_refl 1) hs
    have hs' := sorted_insert (k := k) (v := v) hs
    have hlen := length_insert (k := k) (v := v) hs
    dsimp only
    rw [er]
    cases r with
    | replaced o n' =>
      obtain ⟨i1, i2, i3⟩ := hi
      refine ⟨_, by simp only [toList]; rw [i3], wf_some i1 (i2 ▸ hs') ?_, i2⟩
      cases hf : Spec.find (compare k) n.toList with
      | none => simp [hf] at i3
      | some x => rw [i2, hlen, hf, hl]; rfl
    | absorbed n' =>
      obtain ⟨⟨i1, i2⟩, i3⟩ := hi
      rw [i3] at hlen
      exact ⟨_, by simp only [toList]; rw [i3]; rfl,
        wf_some i1 (i2 ▸ hs') (by rw [i2, hlen, hl]; rfl), i2⟩
    | split lhs kv n' =>
      obtain ⟨⟨i1, i2, i3⟩, i4⟩ := hi
      rw [i4] at hlen
      have e1 : ivPush MAX kv [] = some [kv] := ivPush_eq (l := []) kv (by simp)
      have e2 : (kPush lhs []).bind (kPush n') = some [lhs, n'] := by
        have := kPush_eq (l := []) (c := lhs) (by simp)
        rw [this]
        have := kPush_eq (l := [lhs]) (c := n') (by simp)
        simpa using this
      have e : Node.toList (.mk [kv] [lhs, n']) = Spec.insert k v n.toList := by
        rw [← i3]; simp [inter_cons]
      simp only [e1, e2]
      refine ⟨⟨some (.mk [kv] [lhs, n']), len + 1⟩, by simp only [toList]; rw [i4]; rfl,
        wf_some (h := ht + 1) ?_ (e ▸ hs') (by rw [e, hlen, hl]; rfl), e⟩
      refine ⟨rfl, by simp, by simp, ?_⟩
      intro c hc
      simp only [List.mem_cons, List.not_mem_nil, or_false] at hc
      rcases hc with rfl | rfl
      · exact i1
      · exact i2

theorem extend_spec {m : FMap K V} (h : m.WF) (es : List (K × V)) :
    ∃ m', m.extend lin es = some m' ∧ m'.WF ∧ m'.toList = Spec.insertAll m.toList es := by
  induction es generalizing m with
  | nil => exact ⟨m, rfl, h, rfl⟩
  | cons e es ih =>
    obtain ⟨m1, e1, w1, a1⟩ := insert_spec (lin := lin) h e.1 e.2
    obtain ⟨m2, e2, w2, a2⟩ := ih w1
    refine ⟨m2, by simp [extend, e1, e2], w2, ?_⟩
    rw [a2, a1]; rfl

theorem rmAndRebal_some {m : FMap K V} {L : List (K × V)} (hL : m.len = L.length)
    {kv : K × V} {b : Bool} {n' : Node K V} {ht : Nat} (hshape : RemShape MIN 1 ht b n')
    (hs' : Sorted n'.toList) (hlen : n'.toList.length + 1 = L.length) :
    ∃ m', m.rmAndRebal (some (some (kv, b, n'))) = some (m', some kv) ∧ m'.WF ∧
      m'.toList = n'.toList := by
  obtain ⟨m', e, h, ht⟩ := rmAndRebal_inv (kv := kv) hL hshape hlen
  exact ⟨m', e, h.wf (by rw [ht]; exact hs'), ht⟩

theorem remove_spec {m : FMap K V} (hm : m.WF) {p : K → Ordering} (hp : IsProbe p) :
    ∃ m', m.remove lin p = some (m', (Spec.find p m.toList).map (·.2)) ∧ m'.WF ∧
      m'.toList = Spec.erase p m.toList := by
  obtain ⟨root, len⟩ := m
  cases root with
  | none => exact ⟨_, rfl, hm, rfl⟩
  | some n =>
    obtain ⟨ht, h1⟩ := hm.shape n rfl
    have hs : Sorted n.toList := hm.sorted
    have hl : len = n.toList.length := hm.len
    have e := remove_eq (lin := lin) hp h1 (Nat.le_refl 1) (by decide) hs
    obtain ⟨r, er, hr⟩ := Node.remove_spec hp (by decide) h1 (Nat.le_refl 1) (by decide) hs
    unfold remove
    dsimp only
    rw [e, er]
    rw [RemOk] at hr
    show ∃ m' : FMap K V, _ ∧ _ ∧ m'.toList = Spec.erase p n.toList
    have el := length_erase (V := V) hp hs
    cases hf : Spec.find p n.toList with
    | none =>
      rw [hf] at hr
      dsimp only at hr
      subst hr
      refine ⟨⟨some n, len⟩, by simp [rmAndRebal, toList, hf], hm, ?_⟩
      rw [hf] at el
      rw [find_eq_none] at hf
      exact (filter_all (fun e he => by simpa using hf e he)).symm
    | some x =>
      rw [hf] at hr
      obtain ⟨b, n', rfl, hsh, htl⟩ := hr
      obtain ⟨m', e', w, a⟩ := rmAndRebal_some (m := ⟨some n, len⟩) (L := n.toList) (kv := x) hl hsh
        (by rw [htl]; exact sorted_erase hs) (by rw [hf] at el; rw [htl]; simpa using el)
      exact ⟨m', by rw [e']; simp [toList, hf], w, by rw [a, htl]⟩

end FMap
end Verif.Fixed
