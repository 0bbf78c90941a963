import Verif.BTree.Model
import Verif.Spec.Lemmas
/-!
# B-tree nodes: contents, shape invariant, insertion and removal
-/
set_option linter.unusedSectionVars false
namespace Verif.BTree
open Std Node
universe u v
variable {K : Type u} {V : Type v}

namespace Node

/-! ### Contents -/

mutual
/-- In-order contents. -/
def toList : Node K V → List (K × V)
  | mk es ks => inter ks es
/-- Children and separators interleaved, a child first. -/
def inter : List (Node K V) → List (K × V) → List (K × V)
  | [], es => es
  | c :: ks, [] => toList c ++ inter ks []
  | c :: ks, e :: es => toList c ++ e :: inter ks es
end

/-- Separators and children interleaved, a separator first. -/
def post : List (K × V) → List (Node K V) → List (K × V)
  | [], ks => inter ks []
  | e :: es, ks => e :: inter ks es

@[simp] theorem toList_mk (es : List (K × V)) (ks) : toList (mk es ks) = inter ks es := by
  rw [toList]

@[simp] theorem inter_nil (es : List (K × V)) : inter [] es = es := by
  cases es <;> rw [inter]

theorem inter_cons (c : Node K V) (ks es) : inter (c :: ks) es = toList c ++ post es ks := by
  cases es <;> simp [inter, post]

@[simp] theorem post_nil_nil : post ([] : List (K × V)) [] = [] := by simp [post]
@[simp] theorem post_cons (e : K × V) (es ks) : post (e :: es) ks = e :: inter ks es := rfl

theorem inter_append {ks1 ks2 : List (Node K V)} {es1 es2 : List (K × V)}
    (h : ks1.length = es1.length) :
    inter (ks1 ++ ks2) (es1 ++ es2) = inter ks1 es1 ++ inter ks2 es2 := by
  induction ks1 generalizing es1 with
  | nil => cases es1 <;> simp_all
  | cons c ks1 ih =>
    cases es1 with
    | nil => simp at h
    | cons e es1 =>
      simp only [List.length_cons, Nat.add_right_cancel_iff] at h
      simp [inter_cons, ih h]

/-! ### Shape -/

/-- `Ok N lo h n`: every leaf is at depth `h` below `n`, every node has one child more than
elements (or is a leaf), every node has at most `2N+1` elements, every proper descendant at
least `N`, and `n` itself at least `lo`. -/
def Ok (N : Nat) : Nat → Nat → Node K V → Prop
  | lo, 0, mk es ks => ks = [] ∧ lo ≤ es.length ∧ es.length ≤ 2 * N + 1
  | lo, h + 1, mk es ks => ks.length = es.length + 1 ∧ lo ≤ es.length ∧ es.length ≤ 2 * N + 1 ∧
      ∀ c ∈ ks, Ok N N h c

theorem Ok.mono {N lo lo' h : Nat} {n : Node K V} (hn : Ok N lo h n) (hl : lo' ≤ n.elems.length) :
    Ok N lo' h n := by
  cases n with
  | mk es ks =>
    simp only [elems] at hl
    cases h with
    | zero => exact ⟨hn.1, hl, hn.2.2⟩
    | succ h => exact ⟨hn.1, hl, hn.2.2.1, hn.2.2.2⟩

theorem Ok.lo_le {N lo h : Nat} {n : Node K V} (hn : Ok N lo h n) : lo ≤ n.elems.length := by
  cases n with
  | mk es ks =>
    cases h with
    | zero => exact hn.2.1
    | succ h => exact hn.2.1

theorem Ok.le_hi {N lo h : Nat} {n : Node K V} (hn : Ok N lo h n) :
    n.elems.length ≤ 2 * N + 1 := by
  cases n with
  | mk es ks =>
    cases h with
    | zero => exact hn.2.2
    | succ h => exact hn.2.2.1

/-! ### Lists with a hole -/

section vec
variable {α : Type _}
theorem get_mid (l1 l2 : List α) (x : α) : (l1 ++ x :: l2)[l1.length]? = some x := by simp
theorem get_mid1 (l1 l2 : List α) (x y : α) : (l1 ++ x :: y :: l2)[l1.length + 1]? = some y := by
  rw [List.getElem?_append_right (by omega)]; simp
theorem set_mid (l1 l2 : List α) (x y : α) : (l1 ++ x :: l2).set l1.length y = l1 ++ y :: l2 := by
  simp
theorem set_mid1 (l1 l2 : List α) (x y z : α) :
    (l1 ++ x :: y :: l2).set (l1.length + 1) z = l1 ++ x :: z :: l2 := by
  rw [List.set_append_right _ _ (by omega)]; simp
theorem modify_mid (l1 l2 : List α) (x : α) (f : α → α) :
    (l1 ++ x :: l2).modify l1.length f = l1 ++ f x :: l2 := by
  induction l1 with
  | nil => simp
  | cons a l1 ih => simpa using ih
theorem vInsert_mid (l1 l2 : List α) (x : α) :
    vInsert l1.length x (l1 ++ l2) = some (l1 ++ x :: l2) := by
  simp [vInsert]
theorem vRemove_mid (l1 l2 : List α) (x : α) :
    vRemove l1.length (l1 ++ x :: l2) = some (x, l1 ++ l2) := by
  simp [vRemove, List.drop_append]
theorem vPop_concat (l : List α) (x : α) : vPop (l ++ [x]) = some (x, l) := by
  simp [vPop]
theorem split_at (l : List α) (i : Nat) (h : i < l.length) :
    ∃ l1 x l2, l = l1 ++ x :: l2 ∧ l1.length = i :=
  ⟨l.take i, l[i], l.drop (i + 1), by simp, by simp; omega⟩
theorem split_len (l : List α) (i : Nat) (h : i ≤ l.length) :
    ∃ l1 l2, l = l1 ++ l2 ∧ l1.length = i :=
  ⟨l.take i, l.drop i, by simp, by simp; omega⟩
theorem concat_of_pos (l : List α) (h : 0 < l.length) : ∃ l' x, l = l' ++ [x] := by
  have hne : l ≠ [] := by intro hh; simp [hh] at h
  exact ⟨l.dropLast, l.getLast hne, (List.dropLast_concat_getLast hne).symm⟩
end vec

/-! ### The recursion into a child -/

theorem getAt_eq (p : K → Ordering) : ∀ (i : Nat) (ks : List (Node K V)),
    getAt p i ks = ks[i]?.bind (get p)
  | _, [] => by simp [getAt]
  | 0, c :: ks => by simp [getAt]
  | i + 1, c :: ks => by simp [getAt, getAt_eq p i ks]

theorem containsAt_eq (p : K → Ordering) : ∀ (i : Nat) (ks : List (Node K V)),
    containsAt p i ks = (ks[i]?.map (contains p)).getD false
  | _, [] => by simp [containsAt]
  | 0, c :: ks => by simp [containsAt]
  | i + 1, c :: ks => by simp [containsAt, containsAt_eq p i ks]

theorem getMutAt_eq (p : K → Ordering) (g : V → V) : ∀ (i : Nat) (ks : List (Node K V)),
    getMutAt p g i ks =
      match ks[i]? with
      | none => (ks, false)
      | some c => (ks.set i (getMut p g c).1, (getMut p g c).2)
  | _, [] => by simp [getMutAt]
  | 0, c :: ks => by simp [getMutAt]
  | i + 1, c :: ks => by
    simp only [getMutAt, getMutAt_eq p g i ks, List.getElem?_cons_succ, List.set_cons_succ]
    cases ks[i]? <;> rfl

theorem insAt_eq [Ord K] (N : Nat) (k : K) (v : V) : ∀ (i : Nat) (ks : List (Node K V)),
    insAt N k v i ks = ks[i]?.map (ins N k v)
  | _, [] => by simp [insAt]
  | 0, c :: ks => by simp [insAt]
  | i + 1, c :: ks => by simp [insAt, insAt_eq N k v i ks]

theorem removeAt_eq (N : Nat) (p : K → Ordering) : ∀ (i : Nat) (ks : List (Node K V)),
    removeAt N p i ks = ks[i]?.map (remove N p)
  | _, [] => by simp [removeAt]
  | 0, c :: ks => by simp [removeAt]
  | i + 1, c :: ks => by simp [removeAt, removeAt_eq N p i ks]

theorem popLastKid_eq (N : Nat) : ∀ (i : Nat) (ks : List (Node K V)),
    popLastKid N i ks = ks[i]?.map (popLast N)
  | _, [] => by simp [popLastKid]
  | 0, c :: ks => by simp [popLastKid]
  | i + 1, c :: ks => by simp [popLastKid, popLastKid_eq N i ks]

theorem popFirstAt_eq (N : Nat) (ks : List (Node K V)) :
    popFirstAt N ks = ks.head?.map (popFirst N) := by
  cases ks <;> simp [popFirstAt]

theorem popLastAt_eq (N : Nat) : ∀ (ks : List (Node K V)),
    popLastAt N ks = ks.getLast?.map (popLast N)
  | [] => by simp [popLastAt]
  | [c] => by simp [popLastAt]
  | _ :: c :: ks => by rw [popLastAt, popLastAt_eq N (c :: ks), List.getLast?_cons_cons]

theorem firstAt_eq (ks : List (Node K V)) : firstAt ks = ks.head?.map first := by
  cases ks <;> simp [firstAt]

theorem lastAt_eq : ∀ (ks : List (Node K V)), lastAt ks = ks.getLast?.map last
  | [] => by simp [lastAt]
  | [c] => by simp [lastAt]
  | _ :: c :: ks => by rw [lastAt, lastAt_eq (c :: ks), List.getLast?_cons_cons]

/-! ### The scan -/

theorem locate_le (p : K → Ordering) (es : List (K × V)) : (locate p es).1 ≤ es.length := by
  induction es with
  | nil => simp [locate]
  | cons e es ih => simp only [locate]; split <;> simp <;> omega

theorem locate_spec (p : K → Ordering) (es : List (K × V)) :
    ∃ es1 es2, es = es1 ++ es2 ∧ (locate p es).1 = es1.length ∧ AllGt p es1 ∧
      (if (locate p es).2 then ∃ x es3, es2 = x :: es3 ∧ p x.1 = .eq
       else ∀ x es3, es2 = x :: es3 → p x.1 = .lt) := by
  induction es with
  | nil => exact ⟨[], [], rfl, rfl, by simp, by simp [locate]⟩
  | cons e es ih =>
    obtain ⟨es1, es2, h1, h2, h3, h4⟩ := ih
    cases hp : p e.1 with
    | gt =>
      refine ⟨e :: es1, es2, by simp [h1], by simp [locate, hp, h2], by simp [hp, h3], ?_⟩
      simpa [locate, hp] using h4
    | eq => exact ⟨[], e :: es, rfl, by simp [locate, hp], by simp, by simp [locate, hp]⟩
    | lt => exact ⟨[], e :: es, rfl, by simp [locate, hp], by simp, by simp [locate, hp]⟩

variable [Ord K] [TransOrd K]

/-- Everything before a separator that is below the probe is below it. -/
theorem allGt_inter {p : K → Ordering} (hp : IsProbe p) {ks1 : List (Node K V)} {es1 r}
    (hl : ks1.length = es1.length) (h : AllGt p es1) (hs : Sorted (inter ks1 es1 ++ r)) :
    AllGt p (inter ks1 es1) := by
  by_cases h0 : es1.length = 0
  · have e1 : es1 = [] := List.length_eq_zero_iff.1 h0
    have e2 : ks1 = [] := List.length_eq_zero_iff.1 (by omega)
    subst e1; subst e2; simp
  · obtain ⟨es0, y, rfl⟩ := concat_of_pos es1 (by omega)
    obtain ⟨ks0, d, rfl⟩ := concat_of_pos ks1 (by omega)
    rw [inter_append (by simpa using hl)] at hs ⊢
    have hy : p y.1 = .gt := h y (by simp)
    have e : inter [d] [y] = toList d ++ [y] := by simp [inter_cons]
    rw [e] at hs ⊢
    rw [show inter ks0 es0 ++ (toList d ++ [y]) = (inter ks0 es0 ++ toList d) ++ [y] by simp]
    exact allGt_of_gt hp (r := r) (by simpa using hs) hy

/-- Descent: the child at the scan position, and what lies before and after it. -/
theorem focus {p : K → Ordering} (hp : IsProbe p) {es : List (K × V)} {ks : List (Node K V)}
    (hl : ks.length = es.length + 1) (hs : Sorted (inter ks es)) (hb : (locate p es).2 = false) :
    ∃ es1 es2 ks1 c ks2, es = es1 ++ es2 ∧ ks = ks1 ++ c :: ks2 ∧ es1.length = (locate p es).1 ∧
      ks1.length = es1.length ∧ ks2.length = es2.length ∧
      inter ks es = inter ks1 es1 ++ toList c ++ post es2 ks2 ∧
      AllGt p (inter ks1 es1) ∧ AllLt p (post es2 ks2) := by
  obtain ⟨es1, es2, h1, h2, h3, h4⟩ := locate_spec p es
  rw [hb] at h4; simp only [Bool.false_eq_true, if_false] at h4
  have hlt : es1.length < ks.length := by rw [hl, h1]; simp; omega
  obtain ⟨ks1, c, ks2, e1, e2⟩ := split_at ks es1.length hlt
  have hl2 : ks2.length = es2.length := by
    have := congrArg List.length e1
    have h5 := congrArg List.length h1
    simp at this h5; omega
  have e3 : inter ks es = inter ks1 es1 ++ toList c ++ post es2 ks2 := by
    rw [h1, e1, inter_append e2, inter_cons, List.append_assoc]
  rw [e3] at hs
  refine ⟨es1, es2, ks1, c, ks2, h1, e1, h2.symm, e2, hl2, e3, ?_, ?_⟩
  · exact allGt_inter hp e2 h3 (by simpa using hs)
  · cases es2 with
    | nil =>
      have : ks2 = [] := List.length_eq_zero_iff.1 (by simpa using hl2)
      subst this; simp
    | cons x es3 =>
      exact allLt_of_lt hp (l := inter ks1 es1 ++ toList c) (by simpa using hs) (h4 x es3 rfl)

/-- The probe's key is a separator. -/
theorem focus_eq {p : K → Ordering} (hp : IsProbe p) {es : List (K × V)} {ks : List (Node K V)}
    (hl : ks.length = es.length + 1) (hs : Sorted (inter ks es)) (hb : (locate p es).2 = true) :
    ∃ es1 x es2 ks1 c ks2, es = es1 ++ x :: es2 ∧ ks = ks1 ++ c :: ks2 ∧
      es1.length = (locate p es).1 ∧
      ks1.length = es1.length ∧ ks2.length = es2.length + 1 ∧ p x.1 = .eq ∧
      inter ks es = inter ks1 es1 ++ toList c ++ x :: inter ks2 es2 ∧
      AllGt p (inter ks1 es1 ++ toList c) ∧ AllLt p (inter ks2 es2) := by
  obtain ⟨es1, es2, h1, h2, h3, h4⟩ := locate_spec p es
  rw [hb] at h4; simp only [if_true] at h4
  obtain ⟨x, es3, rfl, hx⟩ := h4
  have hlt : es1.length < ks.length := by rw [hl, h1]; simp; omega
  obtain ⟨ks1, c, ks2, e1, e2⟩ := split_at ks es1.length hlt
  have hl2 : ks2.length = es3.length + 1 := by
    have := congrArg List.length e1
    have h5 := congrArg List.length h1
    simp at this h5; omega
  have e3 : inter ks es = inter ks1 es1 ++ toList c ++ x :: inter ks2 es3 := by
    rw [h1, e1, inter_append e2, inter_cons]; simp
  rw [e3] at hs
  exact ⟨es1, x, es3, ks1, c, ks2, h1, e1, h2.symm, e2, hl2, hx, e3,
    allGt_of_eq hp hs hx, allLt_of_eq hp hs hx⟩

/-- The same in a leaf. -/
theorem focus_leaf {p : K → Ordering} (hp : IsProbe p) {es : List (K × V)}
    (hs : Sorted es) (hb : (locate p es).2 = false) :
    ∃ es1 es2, es = es1 ++ es2 ∧ es1.length = (locate p es).1 ∧ AllGt p es1 ∧ AllLt p es2 := by
  obtain ⟨es1, es2, h1, h2, h3, h4⟩ := locate_spec p es
  rw [hb] at h4; simp only [Bool.false_eq_true, if_false] at h4
  refine ⟨es1, es2, h1, h2.symm, h3, ?_⟩
  cases es2 with
  | nil => simp
  | cons x es3 => exact allLt_of_lt hp (h1 ▸ hs) (h4 x es3 rfl)

theorem focus_leaf_eq {p : K → Ordering} (hp : IsProbe p) {es : List (K × V)}
    (hs : Sorted es) (hb : (locate p es).2 = true) :
    ∃ es1 x es2, es = es1 ++ x :: es2 ∧ es1.length = (locate p es).1 ∧ p x.1 = .eq ∧
      AllGt p es1 ∧ AllLt p es2 := by
  obtain ⟨es1, es2, h1, h2, h3, h4⟩ := locate_spec p es
  rw [hb] at h4; simp only [if_true] at h4
  obtain ⟨x, es3, rfl, hx⟩ := h4
  exact ⟨es1, x, es3, h1, h2.symm, hx, h3, allLt_of_eq hp (h1 ▸ hs) hx⟩

theorem sorted_kid {pre c r : List (K × V)} (h : Sorted (pre ++ c ++ r)) : Sorted c :=
  (sorted_append.1 (sorted_append.1 h).1).2.1

/-! ### Lookups -/

theorem find_single {p : K → Ordering} {x : K × V} {pre r : List (K × V)} (h : p x.1 = .eq)
    (h1 : AllGt p pre) (h2 : AllLt p r) : Spec.find p (pre ++ x :: r) = some x := by
  have := find_ctx (c := [x]) h1 h2
  simp only [List.append_assoc, List.cons_append, List.nil_append] at this
  rw [this]; simp [Spec.find, h]

theorem descIdx_branch {i : Nat} {es : List (K × V)} {n : Nat} (h : n = es.length + 1)
    (hi : i ≤ es.length) : descIdx i es n = i := by
  simp only [descIdx]; split <;> omega

theorem get_spec {p : K → Ordering} (hp : IsProbe p) {N : Nat} :
    ∀ {h lo : Nat} {n : Node K V}, Ok N lo h n → Sorted n.toList → n.get p = Spec.find p n.toList := by
  intro h
  induction h with
  | zero =>
    intro lo n hn hs
    obtain ⟨es, ks⟩ := n
    obtain ⟨rfl, -, -⟩ := hn
    simp only [toList_mk, inter_nil] at hs ⊢
    rw [get]
    by_cases hb : (locate p es).2 = true
    · obtain ⟨es1, x, es2, e, hi, hx, h1, h2⟩ := focus_leaf_eq hp hs hb
      rw [if_pos hb, ← hi]; subst e
      rw [find_single hx h1 h2, get_mid]
    · obtain ⟨es1, es2, e, hi, h1, h2⟩ := focus_leaf hp hs (by simpa using hb)
      rw [if_neg hb, getAt_eq]; subst e
      have := find_ctx (c := []) h1 h2
      simp only [List.append_nil] at this
      rw [this]; simp [Spec.find]
  | succ h ih =>
    intro lo n hn hs
    obtain ⟨es, ks⟩ := n
    obtain ⟨hl, -, -, hk⟩ := hn
    simp only [toList_mk] at hs ⊢
    rw [get]
    by_cases hb : (locate p es).2 = true
    · obtain ⟨es1, x, es2, ks1, c, ks2, e, -, hi, -, -, hx, e3, h1, h2⟩ := focus_eq hp hl hs hb
      rw [if_pos hb, ← hi, e3, find_single hx h1 h2, e, get_mid]
    · obtain ⟨es1, es2, ks1, c, ks2, e, e', hi, hl1, -, e3, h1, h2⟩ :=
        focus hp hl hs (by simpa using hb)
      rw [if_neg hb, getAt_eq, descIdx_branch hl (locate_le _ _), ← hi, ← hl1, e3, find_ctx h1 h2]
      rw [e'] at hk ⊢
      rw [get_mid]
      rw [e3] at hs
      exact ih (hk c (by simp)) (sorted_kid hs)

theorem contains_spec {p : K → Ordering} (hp : IsProbe p) {N : Nat} :
    ∀ {h lo : Nat} {n : Node K V}, Ok N lo h n → Sorted n.toList →
      n.contains p = (Spec.find p n.toList).isSome := by
  intro h
  induction h with
  | zero =>
    intro lo n hn hs
    obtain ⟨es, ks⟩ := n
    obtain ⟨rfl, -, -⟩ := hn
    simp only [toList_mk, inter_nil] at hs ⊢
    rw [contains]
    by_cases hb : (locate p es).2 = true
    · obtain ⟨es1, x, es2, e, hi, hx, h1, h2⟩ := focus_leaf_eq hp hs hb
      rw [if_pos hb, e, find_single hx h1 h2]; rfl
    · obtain ⟨es1, es2, e, hi, h1, h2⟩ := focus_leaf hp hs (by simpa using hb)
      rw [if_neg hb, containsAt_eq, e]
      have := find_ctx (c := []) h1 h2
      simp only [List.append_nil] at this
      rw [this]; simp [Spec.find]
  | succ h ih =>
    intro lo n hn hs
    obtain ⟨es, ks⟩ := n
    obtain ⟨hl, -, -, hk⟩ := hn
    simp only [toList_mk] at hs ⊢
    rw [contains]
    by_cases hb : (locate p es).2 = true
    · obtain ⟨es1, x, es2, ks1, c, ks2, e, -, hi, -, -, hx, e3, h1, h2⟩ := focus_eq hp hl hs hb
      rw [if_pos hb, e3, find_single hx h1 h2]; rfl
    · obtain ⟨es1, es2, ks1, c, ks2, e, e', hi, hl1, -, e3, h1, h2⟩ :=
        focus hp hl hs (by simpa using hb)
      rw [if_neg hb, containsAt_eq, ← hi, ← hl1, e3, find_ctx h1 h2]
      rw [e'] at hk ⊢
      rw [get_mid]
      rw [e3] at hs
      exact ih (hk c (by simp)) (sorted_kid hs)

/-! ### `get_mut` -/

/-- The effect of a write to the entry equal to the probe. -/
def updAt (p : K → Ordering) (g : V → V) (l : List (K × V)) : List (K × V) :=
  l.map (fun e => if p e.1 = .eq then (e.1, g e.2) else e)

theorem updAt_none {p : K → Ordering} {g : V → V} {l : List (K × V)}
    (h : ∀ e ∈ l, p e.1 ≠ .eq) : updAt p g l = l := by
  refine (List.map_congr_left (fun e he => ?_)).trans (List.map_id _)
  simp [h e he]

theorem updAt_gt {p : K → Ordering} {g : V → V} {l : List (K × V)} (h : AllGt p l) :
    updAt p g l = l := updAt_none (fun e he => by simp [h e he])
theorem updAt_lt {p : K → Ordering} {g : V → V} {l : List (K × V)} (h : AllLt p l) :
    updAt p g l = l := updAt_none (fun e he => by simp [h e he])
theorem updAt_append {p : K → Ordering} {g : V → V} {l r : List (K × V)} :
    updAt p g (l ++ r) = updAt p g l ++ updAt p g r := by simp [updAt]
theorem updAt_cons_eq {p : K → Ordering} {g : V → V} {x : K × V} {l : List (K × V)}
    (h : p x.1 = .eq) : updAt p g (x :: l) = (x.1, g x.2) :: updAt p g l := by simp [updAt, h]

theorem getMut_spec {p : K → Ordering} (hp : IsProbe p) (g : V → V) {N : Nat} :
    ∀ {h lo : Nat} {n : Node K V}, Ok N lo h n → Sorted n.toList →
      Ok N lo h (n.getMut p g).1 ∧ (n.getMut p g).1.toList = updAt p g n.toList ∧
      (n.getMut p g).2 = (Spec.find p n.toList).isSome := by
  intro h
  induction h with
  | zero =>
    intro lo n hn hs
    obtain ⟨es, ks⟩ := n
    obtain ⟨rfl, hlo, hhi⟩ := hn
    simp only [toList_mk, inter_nil] at hs ⊢
    rw [getMut]
    by_cases hb : (locate p es).2 = true
    · obtain ⟨es1, x, es2, e, hi, hx, h1, h2⟩ := focus_leaf_eq hp hs hb
      rw [if_pos hb, ← hi]; subst e
      rw [find_single hx h1 h2]
      refine ⟨⟨rfl, by simpa using hlo, by simpa using hhi⟩, ?_, rfl⟩
      rw [updAt_append, updAt_gt h1, updAt_cons_eq hx, updAt_lt h2]
      simp [modify_mid]
    · obtain ⟨es1, es2, e, hi, h1, h2⟩ := focus_leaf hp hs (by simpa using hb)
      rw [if_neg hb, getMutAt_eq]; subst e
      refine ⟨⟨rfl, hlo, hhi⟩, ?_, ?_⟩
      · simp [updAt_append, updAt_gt h1, updAt_lt h2]
      · have := find_ctx (c := []) h1 h2
        simp only [List.append_nil] at this
        rw [this]; simp [Spec.find]
  | succ h ih =>
    intro lo n hn hs
    obtain ⟨es, ks⟩ := n
    obtain ⟨hl, hlo, hhi, hk⟩ := hn
    simp only [toList_mk] at hs ⊢
    rw [getMut]
    by_cases hb : (locate p es).2 = true
    · obtain ⟨es1, x, es2, ks1, c, ks2, e, e', hi, hl1, -, hx, e3, h1, h2⟩ := focus_eq hp hl hs hb
      rw [if_pos hb, ← hi, e3, find_single hx h1 h2]
      refine ⟨⟨by simpa using hl, by simpa using hlo, by simpa using hhi, hk⟩, ?_, rfl⟩
      rw [updAt_append, updAt_gt h1, updAt_cons_eq hx, updAt_lt h2]
      subst e; subst e'
      simp [modify_mid, inter_append hl1, inter_cons]
    · obtain ⟨es1, es2, ks1, c, ks2, e, e', hi, hl1, hl2, e3, h1, h2⟩ :=
        focus hp hl hs (by simpa using hb)
      rw [if_neg hb, getMutAt_eq, descIdx_branch hl (locate_le _ _), ← hi, ← hl1, e3,
        find_ctx h1 h2]
      subst e'
      rw [e3] at hs
      obtain ⟨i1, i2, i3⟩ := ih (hk c (by simp)) (sorted_kid hs)
      rw [get_mid]
      dsimp only
      rw [set_mid]
      refine ⟨⟨by simpa using hl, hlo, hhi, ?_⟩, ?_, i3⟩
      · intro d hd
        simp only [List.mem_append, List.mem_cons] at hd
        rcases hd with hd | rfl | hd
        · exact hk d (by simp [hd])
        · exact i1
        · exact hk d (by simp [hd])
      · subst e
        rw [toList_mk, inter_append hl1, inter_cons, i2, updAt_append, updAt_append, updAt_gt h1,
          updAt_lt h2]
        simp

end Node
end Verif.BTree
