import Verif.Spec.Basic
/-! Elementary facts about orders, probes and sorted lists. -/
set_option linter.unusedSectionVars false
namespace Verif
open Std

section order
variable {K : Type _} [Ord K] [TransOrd K]

theorem cmp_lt_trans {a b c : K} (h1 : compare a b = .lt) (h2 : compare b c = .lt) :
    compare a c = .lt := TransCmp.lt_trans h1 h2

theorem cmp_gt_iff_lt {a b : K} : compare a b = .gt ↔ compare b a = .lt :=
  OrientedCmp.gt_iff_lt

theorem cmp_eq_symm {a b : K} (h : compare a b = .eq) : compare b a = .eq :=
  OrientedCmp.eq_symm h

theorem cmp_self (a : K) : compare a a = .eq := ReflCmp.compare_self

theorem cmp_congr_left {a b c : K} (h : compare a b = .eq) : compare a c = compare b c :=
  TransCmp.congr_left h

theorem cmp_congr_right {a b c : K} (h : compare b c = .eq) : compare a b = compare a c :=
  TransCmp.congr_right h

theorem cmp_lt_irrefl {a : K} : ¬ compare a a = .lt := by simp

theorem isProbe_compare (q : K) : IsProbe (compare q) where
  mono a b hab hqa := by
    cases h : compare q a with
    | lt => exact cmp_lt_trans h hab
    | eq => simpa [cmp_congr_left h] using hab
    | gt => exact absurd h hqa
  congr a b hab := cmp_congr_right hab

/-- A probe through an order-preserving borrow. -/
theorem isProbe_borrow {Q : Type _} [Ord Q] [TransOrd Q] (f : K → Q)
    (hf : ∀ a b, compare (f a) (f b) = compare a b) (q : Q) :
    IsProbe (fun k => compare q (f k)) where
  mono a b hab hqa := (isProbe_compare q).mono (f a) (f b) (by rw [hf]; exact hab) hqa
  congr a b hab := (isProbe_compare q).congr (f a) (f b) (by rw [hf]; exact hab)

variable {p : K → Ordering}

theorem IsProbe.lt_of_lt (hp : IsProbe p) {a b : K} (h : compare a b = .lt) (ha : p a = .lt) :
    p b = .lt := hp.mono a b h (by simp [ha])

theorem IsProbe.lt_of_eq (hp : IsProbe p) {a b : K} (h : compare a b = .lt) (ha : p a = .eq) :
    p b = .lt := hp.mono a b h (by simp [ha])

theorem IsProbe.gt_of_gt (hp : IsProbe p) {a b : K} (h : compare a b = .lt) (hb : p b = .gt) :
    p a = .gt := by
  cases ha : p a with
  | gt => rfl
  | lt => have := hp.mono a b h (by simp [ha]); simp [this] at hb
  | eq => have := hp.mono a b h (by simp [ha]); simp [this] at hb

theorem IsProbe.gt_of_eq (hp : IsProbe p) {a b : K} (h : compare a b = .lt) (hb : p b = .eq) :
    p a = .gt := by
  cases ha : p a with
  | gt => rfl
  | lt => have := hp.mono a b h (by simp [ha]); simp [this] at hb
  | eq => have := hp.mono a b h (by simp [ha]); simp [this] at hb

end order

section sorted
variable {K V : Type _} [Ord K]

theorem sorted_nil : Sorted ([] : List (K × V)) := List.Pairwise.nil

theorem sorted_cons {a : K × V} {l} :
    Sorted (a :: l) ↔ (∀ b ∈ l, compare a.1 b.1 = .lt) ∧ Sorted l := by
  simp [Sorted]

theorem sorted_append {l r : List (K × V)} :
    Sorted (l ++ r) ↔ Sorted l ∧ Sorted r ∧ ∀ a ∈ l, ∀ b ∈ r, compare a.1 b.1 = .lt := by
  simp [Sorted, List.pairwise_append]

theorem Sorted.filter {l : List (K × V)} (h : Sorted l) (f) : Sorted (l.filter f) :=
  List.Pairwise.filter _ h

theorem Sorted.sublist {l l' : List (K × V)} (h : Sorted l) (hs : l'.Sublist l) : Sorted l' :=
  List.Pairwise.sublist hs h

variable [TransOrd K]

theorem sorted_mid {l r : List (K × V)} {x : K × V} :
    Sorted (l ++ x :: r) ↔ Sorted l ∧ Sorted r ∧ (∀ a ∈ l, compare a.1 x.1 = .lt) ∧
      (∀ b ∈ r, compare x.1 b.1 = .lt) := by
  simp only [sorted_append, sorted_cons, List.mem_cons]
  constructor
  · rintro ⟨h1, ⟨h2, h3⟩, h4⟩
    exact ⟨h1, h3, fun a ha => h4 a ha x (Or.inl rfl), h2⟩
  · rintro ⟨h1, h2, h3, h4⟩
    refine ⟨h1, ⟨h4, h2⟩, ?_⟩
    rintro a ha b (rfl | hb)
    · exact h3 a ha
    · exact cmp_lt_trans (h3 a ha) (h4 b hb)

end sorted

/-- Every key of `l` is below the probe (`q > k`). -/
def AllGt {K V} (p : K → Ordering) (l : List (K × V)) : Prop := ∀ e ∈ l, p e.1 = .gt
/-- Every key of `l` is above the probe (`q < k`). -/
def AllLt {K V} (p : K → Ordering) (l : List (K × V)) : Prop := ∀ e ∈ l, p e.1 = .lt

theorem filter_all {α} {f : α → Bool} {l : List α} (h : ∀ a ∈ l, f a = true) : l.filter f = l :=
  List.filter_eq_self.2 h

theorem filter_none {α} {f : α → Bool} {l : List α} (h : ∀ a ∈ l, f a = false) : l.filter f = [] :=
  List.filter_eq_nil_iff.2 (fun a ha => by simp [h a ha])


section ctx
variable {K V : Type _} {p : K → Ordering}

@[simp] theorem allGt_nil : AllGt (V := V) p [] := by simp [AllGt]
@[simp] theorem allLt_nil : AllLt (V := V) p [] := by simp [AllLt]
@[simp] theorem allGt_cons {x : K × V} {l} : AllGt p (x :: l) ↔ p x.1 = .gt ∧ AllGt p l := by
  simp [AllGt]
@[simp] theorem allLt_cons {x : K × V} {l} : AllLt p (x :: l) ↔ p x.1 = .lt ∧ AllLt p l := by
  simp [AllLt]
@[simp] theorem allGt_append {a b : List (K × V)} :
    AllGt p (a ++ b) ↔ AllGt p a ∧ AllGt p b := by
  simp [AllGt, or_imp, forall_and]
@[simp] theorem allLt_append {a b : List (K × V)} :
    AllLt p (a ++ b) ↔ AllLt p a ∧ AllLt p b := by
  simp [AllLt, or_imp, forall_and]

variable {pre c post : List (K × V)}

theorem find_ctx (h1 : AllGt p pre) (h2 : AllLt p post) :
    Spec.find p (pre ++ c ++ post) = Spec.find p c := by
  have e1 : pre.find? (fun e => p e.1 == .eq) = none := by
    rw [List.find?_eq_none]; intro e he; simp [h1 e he]
  have e2 : post.find? (fun e => p e.1 == .eq) = none := by
    rw [List.find?_eq_none]; intro e he; simp [h2 e he]
  simp [Spec.find, List.find?_append, e1, e2]

theorem erase_ctx (h1 : AllGt p pre) (h2 : AllLt p post) :
    Spec.erase p (pre ++ c ++ post) = pre ++ Spec.erase p c ++ post := by
  simp only [Spec.erase, List.filter_append]
  rw [filter_all (l := pre) (fun e he => by simp [h1 e he]),
    filter_all (l := post) (fun e he => by simp [h2 e he])]

theorem below_ctx (h1 : AllGt p pre) (h2 : AllLt p post) :
    Spec.below p (pre ++ c ++ post) = pre ++ Spec.below p c := by
  simp only [Spec.below, List.filter_append]
  rw [filter_all (l := pre) (fun e he => by simp [h1 e he]),
    filter_none (l := post) (fun e he => by simp [h2 e he])]
  simp

theorem atLeast_ctx (h1 : AllGt p pre) (h2 : AllLt p post) :
    Spec.atLeast p (pre ++ c ++ post) = Spec.atLeast p c ++ post := by
  simp only [Spec.atLeast, List.filter_append]
  rw [filter_none (l := pre) (fun e he => by simp [h1 e he]),
    filter_all (l := post) (fun e he => by simp [h2 e he])]
  simp

theorem above_ctx (h1 : AllGt p pre) (h2 : AllLt p post) :
    Spec.above p (pre ++ c ++ post) = Spec.above p c ++ post := by
  simp only [Spec.above, List.filter_append]
  rw [filter_none (l := pre) (fun e he => by simp [h1 e he]),
    filter_all (l := post) (fun e he => by simp [h2 e he])]
  simp

theorem insert_ctx [Ord K] {k : K} {v : V} (h1 : AllGt (compare k) pre)
    (h2 : AllLt (compare k) post) :
    Spec.insert k v (pre ++ c ++ post) = pre ++ Spec.insert k v c ++ post := by
  simp only [Spec.insert, List.filter_append]
  rw [filter_all (l := pre) (fun e he => by simp [h1 e he]),
    filter_none (l := post) (fun e he => by simp [h2 e he]),
    filter_none (l := pre) (fun e he => by simp [h1 e he]),
    filter_all (l := post) (fun e he => by simp [h2 e he])]
  simp

theorem hasKey_ctx [Ord K] {k : K} (h1 : AllGt (compare k) pre)
    (h2 : AllLt (compare k) post) :
    Spec.hasKey k (pre ++ c ++ post) = Spec.hasKey k c := by
  have e1 : pre.any (fun e => compare k e.1 == .eq) = false := by
    rw [List.any_eq_false]; intro e he; simp [h1 e he]
  have e2 : post.any (fun e => compare k e.1 == .eq) = false := by
    rw [List.any_eq_false]; intro e he; simp [h2 e he]
  simp [Spec.hasKey, List.any_append, e1, e2]

section
variable [Ord K] [TransOrd K] {l r : List (K × V)} {x : K × V}

theorem allLt_of_lt (hp : IsProbe p) (hs : Sorted (l ++ x :: r)) (h : p x.1 = .lt) :
    AllLt p (x :: r) := by
  have := (sorted_mid.1 hs).2.2.2
  simp only [allLt_cons]
  exact ⟨h, fun e he => hp.lt_of_lt (this e he) h⟩

theorem allLt_of_eq (hp : IsProbe p) (hs : Sorted (l ++ x :: r)) (h : p x.1 = .eq) :
    AllLt p r := by
  have := (sorted_mid.1 hs).2.2.2
  exact fun e he => hp.lt_of_eq (this e he) h

theorem allGt_of_gt (hp : IsProbe p) (hs : Sorted (l ++ x :: r)) (h : p x.1 = .gt) :
    AllGt p (l ++ [x]) := by
  have := (sorted_mid.1 hs).2.2.1
  simp only [allGt_append, allGt_cons, allGt_nil, and_true]
  exact ⟨fun e he => hp.gt_of_gt (this e he) h, h⟩

theorem allGt_of_eq (hp : IsProbe p) (hs : Sorted (l ++ x :: r)) (h : p x.1 = .eq) :
    AllGt p l := by
  have := (sorted_mid.1 hs).2.2.1
  exact fun e he => hp.gt_of_eq (this e he) h
end
end ctx

/-! ### Spec operations keep the list sorted -/
section keep
variable {K V : Type _} [Ord K] [TransOrd K]

theorem sorted_insert {k : K} {v : V} {l : List (K × V)} (h : Sorted l) :
    Sorted (Spec.insert k v l) := by
  refine sorted_mid.2 ⟨h.filter _, h.filter _, ?_, ?_⟩
  · intro a ha
    simp only [List.mem_filter, beq_iff_eq] at ha
    exact cmp_gt_iff_lt.1 ha.2
  · intro a ha
    simp only [List.mem_filter, beq_iff_eq] at ha
    exact ha.2

theorem sorted_erase {p : K → Ordering} {l : List (K × V)} (h : Sorted l) :
    Sorted (Spec.erase p l) := h.filter _

end keep

/-! ### Lookup in sorted lists, extensionality -/
section ext
variable {K V : Type _} [Ord K] [TransOrd K]

theorem Sorted.eq_of_mem {l : List (K × V)} (h : Sorted l) {a b : K × V} (ha : a ∈ l) (hb : b ∈ l)
    (hab : compare a.1 b.1 = .eq) : a = b := by
  induction l with
  | nil => simp at ha
  | cons x l ih =>
    rw [sorted_cons] at h
    rcases List.mem_cons.1 ha with rfl | ha' <;> rcases List.mem_cons.1 hb with rfl | hb'
    · rfl
    · have := h.1 b hb'; simp [hab] at this
    · have := cmp_gt_iff_lt.2 (h.1 a ha'); simp [hab] at this
    · exact ih h.2 ha' hb'

theorem probe_eq_imp {p : K → Ordering} (hp : IsProbe p) {a b : K} (ha : p a = .eq)
    (hb : p b = .eq) : compare a b = .eq := by
  cases h : compare a b with
  | eq => rfl
  | lt => have := hp.lt_of_eq h ha; simp [hb] at this
  | gt => have := hp.lt_of_eq (cmp_gt_iff_lt.1 h) hb; simp [ha] at this

theorem find_eq_some {p : K → Ordering} (hp : IsProbe p) {l : List (K × V)} (h : Sorted l)
    {e : K × V} : Spec.find p l = some e ↔ e ∈ l ∧ p e.1 = .eq := by
  constructor
  · intro hf
    exact ⟨List.mem_of_find?_eq_some hf, by simpa using List.find?_some hf⟩
  · rintro ⟨hm, he⟩
    cases hf : Spec.find p l with
    | none =>
      rw [Spec.find, List.find?_eq_none] at hf
      exact absurd (by simp [he]) (hf e hm)
    | some x =>
      have hx1 : x ∈ l := List.mem_of_find?_eq_some hf
      have hx2 : p x.1 = .eq := by simpa using List.find?_some hf
      rw [h.eq_of_mem hx1 hm (probe_eq_imp hp hx2 he)]

theorem find_eq_none {p : K → Ordering} {l : List (K × V)} :
    Spec.find p l = none ↔ ∀ e ∈ l, p e.1 ≠ .eq := by
  simp [Spec.find, List.find?_eq_none]

theorem Sorted.ext {l₁ l₂ : List (K × V)} (h₁ : Sorted l₁) (h₂ : Sorted l₂)
    (h : ∀ e, e ∈ l₁ ↔ e ∈ l₂) : l₁ = l₂ := by
  induction l₁ generalizing l₂ with
  | nil =>
    cases l₂ with
    | nil => rfl
    | cons b l₂ => exact absurd ((h b).2 (by simp)) (by simp)
  | cons a l₁ ih =>
    cases l₂ with
    | nil => exact absurd ((h a).1 (by simp)) (by simp)
    | cons b l₂ =>
      rw [sorted_cons] at h₁ h₂
      have hab : a = b := by
        rcases List.mem_cons.1 ((h a).1 (by simp)) with r | ha
        · exact r
        · rcases List.mem_cons.1 ((h b).2 (by simp)) with r | hb
          · exact r.symm
          · have := h₂.1 a ha
            have := cmp_gt_iff_lt.2 (h₁.1 b hb)
            simp_all
      subst hab
      congr 1
      apply ih h₁.2 h₂.2
      intro e
      constructor
      · intro he
        rcases List.mem_cons.1 ((h e).1 (by simp [he])) with rfl | r
        · exact absurd (h₁.1 e he) cmp_lt_irrefl
        · exact r
      · intro he
        rcases List.mem_cons.1 ((h e).2 (by simp [he])) with rfl | r
        · exact absurd (h₂.1 e he) cmp_lt_irrefl
        · exact r

/-- Two maps with the same lookups are the same map. -/
theorem Sorted.ext_find {l₁ l₂ : List (K × V)} (h₁ : Sorted l₁) (h₂ : Sorted l₂)
    (h : ∀ q, Spec.find (compare q) l₁ = Spec.find (compare q) l₂) : l₁ = l₂ := by
  apply h₁.ext h₂
  intro e
  have e1 := find_eq_some (isProbe_compare e.1) h₁ (e := e)
  have e2 := find_eq_some (isProbe_compare e.1) h₂ (e := e)
  simp only [cmp_self, and_true] at e1 e2
  rw [← e1, ← e2, h]

theorem hasKey_iff {k : K} {l : List (K × V)} :
    Spec.hasKey k l = true ↔ ∃ e ∈ l, compare k e.1 = .eq := by
  simp [Spec.hasKey]

theorem hasKey_eq_isSome {k : K} {l : List (K × V)} :
    Spec.hasKey k l = (Spec.find (compare k) l).isSome := by
  simp only [Spec.hasKey, Spec.find]
  induction l with
  | nil => rfl
  | cons a l ih =>
    simp only [List.any_cons, List.find?_cons]
    cases h : compare k a.1 == .eq <;> simp [ih]


theorem sorted_decomp {p : K → Ordering} (hp : IsProbe p) : ∀ {l : List (K × V)}, Sorted l →
    l = Spec.below p l ++ (Spec.find p l).toList ++ Spec.above p l
  | [], _ => rfl
  | a :: l, h => by
    have ih := sorted_decomp hp (sorted_cons.1 h).2
    have hs : Sorted ([] ++ a :: l) := h
    cases ha : p a.1 with
    | lt =>
      have := allLt_of_lt hp hs ha
      rw [show a :: l = [] ++ [] ++ (a :: l) by rfl, below_ctx (by simp) this,
        find_ctx (by simp) this, above_ctx (by simp) this]
      rfl
    | eq =>
      have := allLt_of_eq hp hs ha
      rw [show a :: l = [] ++ [a] ++ l by rfl, below_ctx (by simp) this,
        find_ctx (by simp) this, above_ctx (by simp) this]
      simp [Spec.below, Spec.above, Spec.find, ha]
    | gt =>
      have e1 : Spec.below p (a :: l) = a :: Spec.below p l := by simp [Spec.below, ha]
      have e2 : Spec.find p (a :: l) = Spec.find p l := by simp [Spec.find, ha]
      have e3 : Spec.above p (a :: l) = Spec.above p l := by simp [Spec.above, ha]
      rw [e1, e2, e3]
      simp only [List.cons_append]
      rw [← ih]

theorem erase_eq {p : K → Ordering} (hp : IsProbe p) {l : List (K × V)} (h : Sorted l) :
    Spec.erase p l = Spec.below p l ++ Spec.above p l := by
  have h1 : AllGt p (Spec.below p l) := by
    intro e he; simp only [Spec.below, List.mem_filter] at he; simpa using he.2
  have h2 : AllLt p (Spec.above p l) := by
    intro e he; simp only [Spec.above, List.mem_filter] at he; simpa using he.2
  conv => lhs; rw [sorted_decomp hp h]
  rw [erase_ctx h1 h2]
  cases hf : Spec.find p l with
  | none => simp [Spec.erase]
  | some e =>
    have := (find_eq_some hp h).1 hf
    simp [Spec.erase, this.2]

theorem atLeast_eq {p : K → Ordering} (hp : IsProbe p) {l : List (K × V)} (h : Sorted l) :
    Spec.atLeast p l = (Spec.find p l).toList ++ Spec.above p l := by
  have h1 : AllGt p (Spec.below p l) := by
    intro e he; simp only [Spec.below, List.mem_filter] at he; simpa using he.2
  have h2 : AllLt p (Spec.above p l) := by
    intro e he; simp only [Spec.above, List.mem_filter] at he; simpa using he.2
  conv => lhs; rw [sorted_decomp hp h]
  rw [atLeast_ctx h1 h2]
  cases hf : Spec.find p l with
  | none => simp [Spec.atLeast]
  | some e =>
    have := (find_eq_some hp h).1 hf
    simp [Spec.atLeast, this.2]

theorem length_decomp {p : K → Ordering} (hp : IsProbe p) {l : List (K × V)} (h : Sorted l) :
    l.length = (Spec.below p l).length + (if (Spec.find p l).isSome then 1 else 0)
      + (Spec.above p l).length := by
  conv => lhs; rw [sorted_decomp hp h]
  cases Spec.find p l <;> simp; omega

theorem insert_eq {k : K} {v : V} {l : List (K × V)} :
    Spec.insert k v l = Spec.below (compare k) l ++ (k, v) :: Spec.above (compare k) l := rfl

theorem length_insert {k : K} {v : V} {l : List (K × V)} (h : Sorted l) :
    (Spec.insert k v l).length = l.length + (if (Spec.find (compare k) l).isSome then 0 else 1) := by
  have := length_decomp (isProbe_compare k) h
  rw [insert_eq]
  simp only [List.length_append, List.length_cons]
  split <;> simp_all <;> omega

theorem length_erase {p : K → Ordering} (hp : IsProbe p) {l : List (K × V)} (h : Sorted l) :
    (Spec.erase p l).length + (if (Spec.find p l).isSome then 1 else 0) = l.length := by
  have := length_decomp hp h
  rw [erase_eq hp h]
  simp only [List.length_append]
  omega

theorem mem_insert {k : K} {v : V} {l : List (K × V)} {e : K × V} :
    e ∈ Spec.insert k v l ↔ e = (k, v) ∨ (e ∈ l ∧ compare k e.1 ≠ .eq) := by
  simp only [Spec.insert, List.mem_append, List.mem_cons, List.mem_filter, beq_iff_eq]
  cases compare k e.1 <;> simp <;> grind

theorem find_insert {k : K} {v : V} {l : List (K × V)} (h : Sorted l) {p : K → Ordering}
    (hp : IsProbe p) :
    Spec.find p (Spec.insert k v l) = if p k = .eq then some (k, v) else Spec.find p l := by
  split
  · next hk =>
    rw [find_eq_some hp (sorted_insert h)]
    exact ⟨mem_insert.2 (Or.inl rfl), hk⟩
  · next hk =>
    cases hf : Spec.find p l with
    | none =>
      rw [find_eq_none] at hf ⊢
      intro e he
      rcases mem_insert.1 he with rfl | ⟨he, _⟩
      · exact hk
      · exact hf e he
    | some x =>
      rw [find_eq_some hp h] at hf
      rw [find_eq_some hp (sorted_insert h)]
      refine ⟨mem_insert.2 (Or.inr ⟨hf.1, fun hc => hk ?_⟩), hf.2⟩
      rw [hp.congr _ _ hc, hf.2]

theorem find_erase {l : List (K × V)} (h : Sorted l) {p q : K → Ordering}
    (hp : IsProbe p) (hq : IsProbe q) :
    Spec.find q (Spec.erase p l) =
      (Spec.find q l).filter (fun e => p e.1 != .eq) := by
  cases hf : Spec.find q l with
  | none =>
    rw [Option.filter_none, find_eq_none]
    rw [find_eq_none] at hf
    intro e he
    exact hf e ((List.mem_filter.1 he).1)
  | some x =>
    rw [find_eq_some hq h] at hf
    simp only [Option.filter_some]
    split
    · next hc =>
      rw [find_eq_some hq (sorted_erase h)]
      exact ⟨List.mem_filter.2 ⟨hf.1, hc⟩, hf.2⟩
    · next hc =>
      simp at hc
      rw [find_eq_none]
      intro e he hqe
      rw [Spec.erase, List.mem_filter] at he
      have := h.eq_of_mem he.1 hf.1 (probe_eq_imp hq hqe hf.2)
      subst this
      simp [hc] at he

/-! ### Successive insertion -/

omit [Std.TransOrd K] in
theorem Spec.insertAll_append (l a b : List (K × V)) :
    Spec.insertAll l (a ++ b) = Spec.insertAll (Spec.insertAll l a) b := by simp [Spec.insertAll]

theorem Spec.sorted_insertAll {l : List (K × V)} (h : Sorted l) (es : List (K × V)) :
    Sorted (Spec.insertAll l es) := by
  induction es generalizing l with
  | nil => exact h
  | cons e es ih => exact ih (sorted_insert h)

theorem Spec.insertAll_concat (l es : List (K × V)) (h : Sorted (l ++ es)) :
    Spec.insertAll l es = l ++ es := by
  induction es generalizing l with
  | nil => simp [Spec.insertAll]
  | cons e es ih =>
    have hi : Spec.insert e.1 e.2 l = l ++ [e] := by
      have hl : ∀ a ∈ l, compare a.1 e.1 = .lt := fun a ha =>
        (sorted_append.1 h).2.2 a ha e (by simp)
      unfold Spec.insert
      rw [filter_all, filter_none]
      · intro a ha; have := cmp_gt_iff_lt.2 (hl a ha); simp [this]
      · intro a ha; have := cmp_gt_iff_lt.2 (hl a ha); simp [this]
    show Spec.insertAll (Spec.insert e.1 e.2 l) es = _
    rw [hi, ih _ (by simpa using h)]; simp

theorem Spec.insertAll_sorted {es : List (K × V)} (h : Sorted es) : Spec.insertAll [] es = es := by
  have := Spec.insertAll_concat [] es (by simpa using h)
  simpa using this

/-- The last write wins. -/
theorem Spec.find_insertAll {p : K → Ordering} (hp : IsProbe p) {l : List (K × V)} (h : Sorted l)
    (es : List (K × V)) :
    Spec.find p (Spec.insertAll l es) =
      (es.reverse.find? (fun e => p e.1 == .eq)).or (Spec.find p l) := by
  induction es generalizing l with
  | nil => simp [Spec.insertAll]
  | cons e es ih =>
    show Spec.find p (Spec.insertAll (Spec.insert e.1 e.2 l) es) = _
    rw [ih (sorted_insert h), find_insert h hp]
    simp only [List.reverse_cons, List.find?_append, List.find?_cons, List.find?_nil, Option.or_assoc]
    congr 1
    by_cases hpe : p e.1 = .eq
    · simp [hpe]
    · have : (p e.1 == .eq) = false := by simpa using hpe
      simp [hpe, this]

/-! ### Set operations -/

theorem find_filter {p : K → Ordering} (hp : IsProbe p) {l : List (K × V)} (h : Sorted l)
    (f : K × V → Bool) : Spec.find p (l.filter f) = (Spec.find p l).filter f := by
  cases hf : Spec.find p l with
  | none =>
    rw [find_eq_none] at hf
    rw [Option.filter_none, find_eq_none]
    exact fun e he => hf e (List.mem_filter.1 he).1
  | some x =>
    rw [find_eq_some hp h] at hf
    simp only [Option.filter_some]
    split
    · next hc =>
      rw [find_eq_some hp (h.filter _)]
      exact ⟨List.mem_filter.2 ⟨hf.1, hc⟩, hf.2⟩
    · next hc =>
      rw [find_eq_none]
      intro e he hpe
      rw [List.mem_filter] at he
      have := h.eq_of_mem he.1 hf.1 (probe_eq_imp hp hpe hf.2)
      subst this
      exact hc he.2

theorem hasKey_of_find {q : K} {a b : List (K × V)} {x : K × V}
    (hx : Spec.find (compare q) a = some x) :
    Spec.hasKey x.1 b = (Spec.find (compare q) b).isSome := by
  have hq : compare q x.1 = .eq := by simpa using List.find?_some hx
  rw [hasKey_eq_isSome]
  have : (fun e : K × V => compare x.1 e.1 == .eq) = (fun e => compare q e.1 == .eq) := by
    funext e; rw [cmp_congr_left hq]
  simp only [Spec.find, this]

theorem find_reverse {p : K → Ordering} (hp : IsProbe p) {l : List (K × V)} (h : Sorted l) :
    l.reverse.find? (fun e => p e.1 == .eq) = Spec.find p l := by
  cases hf : Spec.find p l with
  | none =>
    rw [find_eq_none] at hf
    rw [List.find?_eq_none]
    intro e he; simpa using hf e (by simpa using he)
  | some x =>
    have hx := (find_eq_some hp h).1 hf
    cases hr : l.reverse.find? (fun e => p e.1 == .eq) with
    | none =>
      rw [List.find?_eq_none] at hr
      exact absurd hx.2 (by simpa using hr x (by simpa using hx.1))
    | some y =>
      have h1 := List.mem_of_find?_eq_some hr
      have h2 := List.find?_some hr
      simp at h1 h2
      rw [h.eq_of_mem h1 hx.1 (probe_eq_imp hp h2 hx.2)]

variable {a b : List (K × V)}

theorem Spec.sorted_inter (ha : Sorted a) : Sorted (Spec.inter a b) := ha.filter _
theorem Spec.sorted_diff (ha : Sorted a) : Sorted (Spec.diff a b) := ha.filter _
theorem Spec.sorted_union (ha : Sorted a) : Sorted (Spec.union a b) := Spec.sorted_insertAll ha b
theorem Spec.sorted_symDiff (ha : Sorted a) : Sorted (Spec.symDiff a b) :=
  Spec.sorted_insertAll (Spec.sorted_diff ha) _

theorem Spec.find_union {p : K → Ordering} (hp : IsProbe p) (ha : Sorted a) (hb : Sorted b) :
    Spec.find p (Spec.union a b) = (Spec.find p b).or (Spec.find p a) := by
  rw [Spec.union, Spec.find_insertAll hp ha, find_reverse hp hb]

theorem Spec.find_inter (q : K) (ha : Sorted a) :
    Spec.find (compare q) (Spec.inter a b) =
      if (Spec.find (compare q) b).isSome then Spec.find (compare q) a else none := by
  rw [Spec.inter, find_filter (isProbe_compare q) ha]
  cases h : Spec.find (compare q) a with
  | none => simp
  | some x => simp only [Option.filter_some, hasKey_of_find h]

theorem Spec.find_diff (q : K) (ha : Sorted a) :
    Spec.find (compare q) (Spec.diff a b) =
      if (Spec.find (compare q) b).isSome then none else Spec.find (compare q) a := by
  rw [Spec.diff, find_filter (isProbe_compare q) ha]
  cases h : Spec.find (compare q) a with
  | none => simp
  | some x =>
    simp only [Option.filter_some, hasKey_of_find h]
    cases (Spec.find (compare q) b).isSome <;> simp

theorem Spec.find_symDiff (q : K) (ha : Sorted a) (hb : Sorted b) :
    Spec.find (compare q) (Spec.symDiff a b) =
      match Spec.find (compare q) a, Spec.find (compare q) b with
      | some x, none => some x
      | none, some y => some y
      | _, _ => none := by
  have h1 := Spec.find_insertAll (isProbe_compare q) (Spec.sorted_diff (b := b) ha) (Spec.diff b a)
  rw [find_reverse (isProbe_compare q) (Spec.sorted_diff hb), Spec.find_diff q ha,
    Spec.find_diff q hb] at h1
  rw [Spec.symDiff, h1]
  cases Spec.find (compare q) a <;> cases Spec.find (compare q) b <;> simp

end ext
end Verif
