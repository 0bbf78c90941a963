import Verif.BTree.Insert
/-!
# B-tree removal and rebalancing
-/
set_option linter.unusedSectionVars false
namespace Verif.BTree
open Std
universe u v
variable {K : Type u} {V : Type v}

namespace Node

/-! ### Rebalancing -/

theorem inter_glue {N h : Nat} {les res : List (K × V)} {lks rks : List (Node K V)} (mid : K × V)
    (hl : Body N h les lks) (hr : Body N h res rks) :
    inter (lks ++ rks) (les ++ mid :: res) = inter lks les ++ mid :: inter rks res := by
  cases h with
  | zero =>
    have e1 : lks = [] := hl
    have e2 : rks = [] := hr
    subst e1; subst e2; simp
  | succ h =>
    obtain ⟨h1, -⟩ := hl
    obtain ⟨ks0, d, rfl⟩ := concat_of_pos lks (by omega)
    simp only [List.length_append, List.length_cons, List.length_nil] at h1
    have e1 := inter_append (ks1 := ks0) (ks2 := d :: rks) (es1 := les) (es2 := mid :: res) (by omega)
    have e2 := inter_append (ks1 := ks0) (ks2 := [d]) (es1 := les) (es2 := []) (by omega)
    simp only [List.append_nil] at e2
    rw [e2, List.append_assoc, List.singleton_append, e1]; simp [inter_cons]

theorem body_glue {N h : Nat} {les res : List (K × V)} {lks rks : List (Node K V)} (mid : K × V)
    (hl : Body N h les lks) (hr : Body N h res rks) :
    Body N h (les ++ mid :: res) (lks ++ rks) := by
  cases h with
  | zero =>
    have e1 : lks = [] := hl
    have e2 : rks = [] := hr
    subst e1; subst e2; rfl
  | succ h =>
    refine ⟨by simp [hl.1, hr.1]; omega, ?_⟩
    intro c hc
    simp only [List.mem_append] at hc
    exact hc.elim (hl.2 c) (hr.2 c)

theorem mergeKids_spec {N h a b : Nat} {es1 es2 : List (K × V)} {ks1 ks2 : List (Node K V)}
    {x : K × V} {l r : Node K V} (h1 : ks1.length = es1.length) (h2 : ks2.length = es2.length)
    (hes : es1.length + es2.length + 1 ≤ 2 * N + 1)
    (hk1 : ∀ d ∈ ks1, Ok N N h d) (hk2 : ∀ d ∈ ks2, Ok N N h d) (hl : Ok N a h l) (hr : Ok N b h r)
    (hle : l.elems.length + 1 + r.elems.length ≤ 2 * N + 1)
    (hge : N ≤ l.elems.length + 1 + r.elems.length) :
    ∃ n', mergeKids es1.length (es1 ++ x :: es2) (ks1 ++ l :: r :: ks2) = some n' ∧
      Ok N (es1.length + es2.length) (h + 1) n' ∧
      toList n' = inter (ks1 ++ l :: r :: ks2) (es1 ++ x :: es2) := by
  obtain ⟨les, lks⟩ := l
  obtain ⟨res, rks⟩ := r
  simp only [elems] at hle hge
  have bl := (ok_iff.1 hl).1
  have br := (ok_iff.1 hr).1
  refine ⟨mk (es1 ++ es2) (ks1 ++ mk (les ++ x :: res) (lks ++ rks) :: ks2), ?_, ?_, ?_⟩
  · have e1 : vRemove es1.length (ks1 ++ mk les lks :: mk res rks :: ks2) =
        some (mk les lks, ks1 ++ mk res rks :: ks2) := by rw [← h1, vRemove_mid]
    have e2 : (ks1 ++ mk res rks :: ks2)[es1.length]? = some (mk res rks) := by
      rw [← h1, get_mid]
    have e3 : ∀ d, (ks1 ++ mk res rks :: ks2).set es1.length d = ks1 ++ d :: ks2 := by
      intro d; rw [← h1, set_mid]
    simp only [mergeKids, vRemove_mid, e1, e2, e3]
  · refine ok_iff.2 ⟨⟨by simp; omega, ?_⟩, by simp, by simp; omega⟩
    intro d hd
    simp only [List.mem_append, List.mem_cons] at hd
    rcases hd with hd | rfl | hd
    · exact hk1 d hd
    · exact ok_iff.2 ⟨body_glue x bl br, by simp; omega, by simp; omega⟩
    · exact hk2 d hd
  · simp only [toList_mk]
    rw [inter_append h1, inter_append h1, inter_cons, inter_cons, post_cons, inter_cons]
    simp [inter_glue x bl br]

theorem rotRt_spec {N h a b : Nat} {es1 es2 : List (K × V)} {ks1 ks2 : List (Node K V)}
    {x : K × V} {l r : Node K V} (h1 : ks1.length = es1.length) (h2 : ks2.length = es2.length)
    (hes : es1.length + es2.length + 1 ≤ 2 * N + 1)
    (hk1 : ∀ d ∈ ks1, Ok N N h d) (hk2 : ∀ d ∈ ks2, Ok N N h d) (hl : Ok N a h l) (hr : Ok N b h r)
    (hll : N < l.elems.length) (hge : N ≤ r.elems.length + 1) (hle : r.elems.length ≤ 2 * N) :
    ∃ n', rotRt N es1.length (es1 ++ x :: es2) (ks1 ++ l :: r :: ks2) = some n' ∧
      Ok N (es1.length + es2.length) (h + 1) n' ∧
      toList n' = inter (ks1 ++ l :: r :: ks2) (es1 ++ x :: es2) := by
  obtain ⟨les, lks⟩ := l
  obtain ⟨res, rks⟩ := r
  simp only [elems] at hle hge hll
  obtain ⟨les', y, rfl⟩ := concat_of_pos les (by omega)
  have bl := (ok_iff.1 hl).1
  have hlhi := (ok_iff.1 hl).2.2
  have br := (ok_iff.1 hr).1
  simp only [List.length_append, List.length_cons, List.length_nil] at hll hlhi
  refine ⟨mk (es1 ++ y :: es2)
    (ks1 ++ mk les' lks.dropLast :: mk (x :: res) (lks.getLast?.toList ++ rks) :: ks2), ?_, ?_, ?_⟩
  · have e1 : (ks1 ++ mk (les' ++ [y]) lks :: mk res rks :: ks2)[es1.length]? =
        some (mk (les' ++ [y]) lks) := by rw [← h1, get_mid]
    have e2 : (ks1 ++ mk (les' ++ [y]) lks :: mk res rks :: ks2)[es1.length + 1]? =
        some (mk res rks) := by rw [← h1, get_mid1]
    have e3 : ∀ d, (ks1 ++ mk (les' ++ [y]) lks :: mk res rks :: ks2).set es1.length d =
        ks1 ++ d :: mk res rks :: ks2 := by intro d; rw [← h1, set_mid]
    have e4 : ∀ c d, (ks1 ++ c :: mk res rks :: ks2).set (es1.length + 1) d =
        ks1 ++ c :: d :: ks2 := by intro c d; rw [← h1, set_mid1]
    have hn : ¬ ((les' ++ [y]).length ≤ N) := by simp; omega
    simp only [rotRt, e1, e2, e3, e4, if_neg hn, vPop_concat, get_mid, set_mid]
  · refine ok_iff.2 ⟨⟨by simp; omega, ?_⟩, by simp, by simp; omega⟩
    intro d hd
    simp only [List.mem_append, List.mem_cons] at hd
    rcases hd with hd | rfl | rfl | hd
    · exact hk1 d hd
    · refine ok_iff.2 ⟨?_, by omega, by omega⟩
      cases h with
      | zero => have e : lks = [] := bl; subst e; rfl
      | succ h =>
        refine ⟨by have := bl.1; simp at this ⊢; omega, ?_⟩
        intro c hc
        exact bl.2 c (List.dropLast_subset _ hc)
    · refine ok_iff.2 ⟨?_, by simp; omega, by simp; omega⟩
      cases h with
      | zero =>
        have e : lks = [] := bl; subst e
        have e : rks = [] := br; subst e; rfl
      | succ h =>
        have hbl := bl.1
        simp only [List.length_append, List.length_cons, List.length_nil] at hbl
        obtain ⟨lks', z, rfl⟩ := concat_of_pos lks (by omega)
        refine ⟨by have := br.1; simp; omega, ?_⟩
        intro c hc
        simp at hc
        rcases hc with rfl | hc
        · exact bl.2 c (by simp)
        · exact br.2 c hc
    · exact hk2 d hd
  · simp only [toList_mk]
    rw [inter_append h1, inter_append h1, inter_cons, inter_cons, post_cons, inter_cons, post_cons,
      inter_cons]
    simp only [toList_mk, List.append_cancel_left_eq]
    cases h with
    | zero =>
      have e : lks = [] := bl; subst e
      have e : rks = [] := br; subst e; simp
    | succ h =>
      have hbl := bl.1
      simp only [List.length_append, List.length_cons, List.length_nil] at hbl
      obtain ⟨lks', z, rfl⟩ := concat_of_pos lks (by omega)
      simp only [List.length_append, List.length_cons, List.length_nil] at hbl
      obtain ⟨lk0, w, rfl⟩ := concat_of_pos lks' (by omega)
      simp only [List.length_append, List.length_cons, List.length_nil] at hbl
      have e1 := inter_append (ks1 := lk0) (ks2 := [w, z]) (es1 := les') (es2 := [y]) (by omega)
      have e2 := inter_append (ks1 := lk0) (ks2 := [w]) (es1 := les') (es2 := []) (by omega)
      simp only [List.append_nil] at e2
      simp [e1, e2, inter_cons]

theorem rotLf_spec {N h a b : Nat} {es1 es2 : List (K × V)} {ks1 ks2 : List (Node K V)}
    {x : K × V} {l r : Node K V} (h1 : ks1.length = es1.length) (h2 : ks2.length = es2.length)
    (hes : es1.length + es2.length + 1 ≤ 2 * N + 1)
    (hk1 : ∀ d ∈ ks1, Ok N N h d) (hk2 : ∀ d ∈ ks2, Ok N N h d) (hl : Ok N a h l) (hr : Ok N b h r)
    (hrr : N < r.elems.length) (hge : N ≤ l.elems.length + 1) (hle : l.elems.length < N) :
    ∃ n', rotLf N es1.length (es1 ++ x :: es2) (ks1 ++ l :: r :: ks2) = some n' ∧
      Ok N (es1.length + es2.length) (h + 1) n' ∧
      toList n' = inter (ks1 ++ l :: r :: ks2) (es1 ++ x :: es2) := by
  obtain ⟨les, lks⟩ := l
  obtain ⟨res, rks⟩ := r
  simp only [elems] at hle hge hrr
  have bl := (ok_iff.1 hl).1
  have br := (ok_iff.1 hr).1
  have hrhi := (ok_iff.1 hr).2.2
  cases res with
  | nil => simp at hrr
  | cons y res' =>
  simp only [List.length_cons] at hrr hrhi
  refine ⟨mk (es1 ++ y :: es2)
    (ks1 ++ mk (les ++ [x]) (lks ++ rks.head?.toList) :: mk res' rks.tail :: ks2), ?_, ?_, ?_⟩
  · have e1 : (ks1 ++ mk les lks :: mk (y :: res') rks :: ks2)[es1.length]? =
        some (mk les lks) := by rw [← h1, get_mid]
    have e2 : (ks1 ++ mk les lks :: mk (y :: res') rks :: ks2)[es1.length + 1]? =
        some (mk (y :: res') rks) := by rw [← h1, get_mid1]
    have e3 : ∀ c d, (ks1 ++ mk les lks :: c :: ks2).set es1.length d =
        ks1 ++ d :: c :: ks2 := by intro c d; rw [← h1, set_mid]
    have e4 : ∀ d, (ks1 ++ mk les lks :: mk (y :: res') rks :: ks2).set (es1.length + 1) d =
        ks1 ++ mk les lks :: d :: ks2 := by intro d; rw [← h1, set_mid1]
    have hn : ¬ ((y :: res').length ≤ N) := by simp; omega
    have hn2 : ¬ (N ≤ les.length) := by omega
    have e5 : vRemove 0 (y :: res') = some (y, res') := by simp [vRemove]
    simp only [rotLf, e1, e2, e3, e4, e5, if_neg hn, if_neg hn2, get_mid, set_mid]
  · refine ok_iff.2 ⟨⟨by simp; omega, ?_⟩, by simp, by simp; omega⟩
    intro d hd
    simp only [List.mem_append, List.mem_cons] at hd
    rcases hd with hd | rfl | rfl | hd
    · exact hk1 d hd
    · refine ok_iff.2 ⟨?_, by simp; omega, by simp; omega⟩
      cases h with
      | zero =>
        have e : lks = [] := bl; subst e
        have e : rks = [] := br; subst e; rfl
      | succ h =>
        cases rks with
        | nil => have := br.1; simp at this
        | cons z rks' =>
        refine ⟨by have := bl.1; simp; omega, ?_⟩
        intro c hc
        simp at hc
        rcases hc with hc | rfl
        · exact bl.2 c hc
        · exact br.2 c (by simp)
    · refine ok_iff.2 ⟨?_, by omega, by omega⟩
      cases h with
      | zero => have e : rks = [] := br; subst e; rfl
      | succ h =>
        refine ⟨by have := br.1; simp at this ⊢; omega, ?_⟩
        intro c hc
        exact br.2 c (List.mem_of_mem_tail hc)
    · exact hk2 d hd
  · simp only [toList_mk]
    rw [inter_append h1, inter_append h1, inter_cons, inter_cons, post_cons, inter_cons, post_cons,
      inter_cons]
    simp only [toList_mk, List.append_cancel_left_eq]
    cases h with
    | zero =>
      have e : lks = [] := bl; subst e
      have e : rks = [] := br; subst e; simp
    | succ h =>
      cases rks with
      | nil => have := br.1; simp at this
      | cons z rks' =>
      have hbl := bl.1
      obtain ⟨lks', w, rfl⟩ := concat_of_pos lks (by omega)
      simp only [List.length_append, List.length_cons, List.length_nil] at hbl
      have e1 := inter_append (ks1 := lks') (ks2 := [w, z]) (es1 := les) (es2 := [x]) (by omega)
      have e2 := inter_append (ks1 := lks') (ks2 := [w]) (es1 := les) (es2 := []) (by omega)
      simp only [List.append_nil] at e2
      simp [e1, e2, inter_cons]

/-- `rebal` restores the shape when one child is one element short. -/
theorem rebal_spec {N h : Nat} {es1 es2 : List (K × V)} {ks1 ks2 : List (Node K V)}
    {c : Node K V} (hN : 1 ≤ N) (h1 : ks1.length = es1.length) (h2 : ks2.length = es2.length)
    (hpos : 1 ≤ es1.length + es2.length) (hes : es1.length + es2.length ≤ 2 * N + 1)
    (hk1 : ∀ d ∈ ks1, Ok N N h d) (hk2 : ∀ d ∈ ks2, Ok N N h d) (hc : Ok N (N - 1) h c)
    (hlt : c.elems.length < N) :
    ∃ n', rebal N es1.length (es1 ++ es2) (ks1 ++ c :: ks2) = some n' ∧
      Ok N (es1.length + es2.length - 1) (h + 1) n' ∧
      toList n' = inter (ks1 ++ c :: ks2) (es1 ++ es2) := by
  have hc1 := hc.lo_le
  have hne : (ks1 ++ c :: ks2).isEmpty = false := by cases ks1 <;> rfl
  rw [rebal, hne]
  simp only [Bool.false_eq_true, if_false]
  by_cases h0 : 0 < es1.length
  · rw [if_pos h0]
    obtain ⟨es0, x, rfl⟩ := concat_of_pos es1 h0
    obtain ⟨ks0, l, rfl⟩ := concat_of_pos ks1 (by omega)
    simp only [List.length_append, List.length_cons, List.length_nil] at h1 hes hpos
    have hl : Ok N N h l := hk1 l (by simp)
    have hl1 := hl.lo_le
    have hl2 := hl.le_hi
    have e0 : ks0 ++ [l] ++ c :: ks2 = ks0 ++ l :: c :: ks2 := by simp
    have e1 : es0 ++ [x] ++ es2 = es0 ++ x :: es2 := by simp
    have e2 : (es0 ++ [x]).length - 1 = es0.length := by simp
    have e3 : kidLen (ks0 ++ l :: c :: ks2) es0.length = some l.elems.length := by
      rw [kidLen, show es0.length = ks0.length by omega, get_mid]; rfl
    have e4 : (es0 ++ [x]).length + es2.length - 1 = es0.length + es2.length := by simp
    rw [e0, e1, e2, e3, e4]
    dsimp only
    have hk0 : ∀ d ∈ ks0, Ok N N h d := fun d hd => hk1 d (by simp [hd])
    split
    · exact rotRt_spec (by omega) h2 (by omega) hk0 hk2 hl hc (by omega) (by omega) (by omega)
    · exact mergeKids_spec (by omega) h2 (by omega) hk0 hk2 hl hc (by omega) (by omega)
  · rw [if_neg h0]
    have e0 : es1 = [] := List.length_eq_zero_iff.1 (by omega)
    have e0' : ks1 = [] := List.length_eq_zero_iff.1 (by omega)
    subst e0; subst e0'
    simp only [List.length_nil, Nat.zero_add, List.nil_append] at hes hpos ⊢
    cases es2 with
    | nil => simp at hpos
    | cons x es2 =>
    cases ks2 with
    | nil => simp at h2
    | cons r ks2 =>
    simp only [List.length_cons, Nat.add_right_cancel_iff] at h2 hes
    have hr : Ok N N h r := hk2 r (by simp)
    have hr1 := hr.lo_le
    have hr2 := hr.le_hi
    have hk3 : ∀ d ∈ ks2, Ok N N h d := fun d hd => hk2 d (by simp [hd])
    have e3 : kidLen (c :: r :: ks2) 1 = some r.elems.length := by simp [kidLen]
    rw [e3]
    have e4 : (x :: es2).length - 1 = es2.length := by simp
    rw [e4]
    dsimp only
    split
    · have := rotLf_spec (es1 := []) (ks1 := []) (x := x) (N := N) rfl h2 (by simp; omega) (by simp)
        hk3 hc hr (by omega) (by omega) (by omega)
      simpa using this
    · have := mergeKids_spec (es1 := []) (ks1 := []) (x := x) (N := N) rfl h2 (by simp; omega)
        (by simp) hk3 hc hr (by omega) (by omega)
      simpa using this

/-! ### Removal -/

/-- Shape after a removal, given the flag that was reported. -/
def RemShape (N lo h : Nat) (b : Bool) (n : Node K V) : Prop :=
  if b then Ok N (lo - 1) h n ∧ n.elems.length < N else Ok N lo h n

theorem remShape_leaf {N lo : Nat} {es : List (K × V)} (hloN : lo ≤ N) (h1 : lo - 1 ≤ es.length)
    (h2 : es.length ≤ 2 * N + 1) :
    RemShape N lo 0 (decide (es.length < N)) (mk es []) := by
  unfold RemShape
  by_cases h : es.length < N
  · simp only [h, decide_true, if_true, elems]; exact ⟨⟨rfl, h1, h2⟩, trivial⟩
  · simp only [h, decide_false, Bool.false_eq_true, if_false]; exact ⟨rfl, by omega, h2⟩

theorem afterKid_spec {N h lo : Nat} {es1 es2 : List (K × V)} {ks1 ks2 : List (Node K V)}
    {c : Node K V} {b : Bool} (kv : K × V) (hN : 1 ≤ N) (hlo1 : 1 ≤ lo) (hloN : lo ≤ N)
    (h1 : ks1.length = es1.length) (h2 : ks2.length = es2.length)
    (hlo : lo ≤ es1.length + es2.length) (hes : es1.length + es2.length ≤ 2 * N + 1)
    (hk1 : ∀ d ∈ ks1, Ok N N h d) (hk2 : ∀ d ∈ ks2, Ok N N h d) (hc : RemShape N N h b c) :
    ∃ b' n', afterKid N es1.length kv b (es1 ++ es2) (ks1 ++ c :: ks2) = some (kv, b', n') ∧
      RemShape N lo (h + 1) b' n' ∧ toList n' = inter (ks1 ++ c :: ks2) (es1 ++ es2) := by
  cases b with
  | true =>
    obtain ⟨hc1, hc2⟩ := hc
    obtain ⟨n', e, ho, ht⟩ := rebal_spec hN h1 h2 (by omega) hes hk1 hk2 hc1 hc2
    refine ⟨under N n', n', by simp [afterKid, e], ?_, ht⟩
    have := ho.lo_le
    unfold RemShape under
    by_cases hu : n'.elems.length < N
    · simp only [hu, decide_true, if_true]; exact ⟨ho.mono (by omega), trivial⟩
    · simp only [hu, decide_false, Bool.false_eq_true, if_false]; exact ho.mono (by omega)
  | false =>
    refine ⟨false, mk (es1 ++ es2) (ks1 ++ c :: ks2), by simp [afterKid], ?_, by simp⟩
    refine ok_iff.2 ⟨⟨by simp; omega, ?_⟩, by simpa using hlo, by simpa using hes⟩
    intro d hd
    simp only [List.mem_append, List.mem_cons] at hd
    rcases hd with hd | rfl | hd
    · exact hk1 d hd
    · exact hc
    · exact hk2 d hd

theorem popFirst_spec {N : Nat} (hN : 1 ≤ N) :
    ∀ {h lo : Nat} {n : Node K V}, Ok N lo h n → 1 ≤ lo → lo ≤ N →
      ∃ kv b n', popFirst N n = some (kv, b, n') ∧ RemShape N lo h b n' ∧
        toList n = kv :: toList n' := by
  intro h
  induction h with
  | zero =>
    intro lo n hn hlo1 hloN
    obtain ⟨es, ks⟩ := n
    obtain ⟨rfl, hlo, hhi⟩ := hn
    cases es with
    | nil => simp at hlo; omega
    | cons e es =>
      refine ⟨e, _, mk es [], by simp [popFirst, popFirstAt, vRemove]; rfl, ?_, by simp⟩
      simp only [List.length_cons] at hlo hhi
      exact remShape_leaf hloN (by omega) (by omega)
  | succ h ih =>
    intro lo n hn hlo1 hloN
    obtain ⟨es, ks⟩ := n
    obtain ⟨hl, hlo, hhi, hk⟩ := hn
    cases ks with
    | nil => simp at hl
    | cons c ks =>
    simp only [List.length_cons, Nat.add_right_cancel_iff] at hl
    obtain ⟨kv, b, c', e, hs, ht⟩ := ih (hk c (by simp)) hN (Nat.le_refl N)
    obtain ⟨b', n', e2, hs2, ht2⟩ := afterKid_spec (es1 := []) (ks1 := []) (es2 := es) (ks2 := ks)
      kv hN hlo1 hloN rfl hl (by simpa using hlo) (by simpa using hhi) (by simp)
      (fun d hd => hk d (by simp [hd])) hs
    refine ⟨kv, b', n', ?_, hs2, ?_⟩
    · rw [popFirst, popFirstAt_eq]
      simp only [List.head?_cons, Option.map_some, e, List.set_cons_zero]
      simpa using e2
    · rw [ht2]; simp [inter_cons, ht]

theorem popLast_spec {N : Nat} (hN : 1 ≤ N) :
    ∀ {h lo : Nat} {n : Node K V}, Ok N lo h n → 1 ≤ lo → lo ≤ N →
      ∃ kv b n', popLast N n = some (kv, b, n') ∧ RemShape N lo h b n' ∧
        toList n = toList n' ++ [kv] := by
  intro h
  induction h with
  | zero =>
    intro lo n hn hlo1 hloN
    obtain ⟨es, ks⟩ := n
    obtain ⟨rfl, hlo, hhi⟩ := hn
    obtain ⟨es, e, rfl⟩ := concat_of_pos es (by omega)
    refine ⟨e, _, mk es [], by simp [popLast, popLastAt, vPop_concat]; rfl, ?_, by simp⟩
    simp only [List.length_append, List.length_cons, List.length_nil] at hlo hhi
    exact remShape_leaf hloN (by omega) (by omega)
  | succ h ih =>
    intro lo n hn hlo1 hloN
    obtain ⟨es, ks⟩ := n
    obtain ⟨hl, hlo, hhi, hk⟩ := hn
    obtain ⟨ks, c, rfl⟩ := concat_of_pos ks (by omega)
    simp only [List.length_append, List.length_cons, List.length_nil] at hl
    obtain ⟨kv, b, c', e, hs, ht⟩ := ih (hk c (by simp)) hN (Nat.le_refl N)
    obtain ⟨b', n', e2, hs2, ht2⟩ := afterKid_spec (es1 := es) (ks1 := ks) (es2 := []) (ks2 := [])
      kv hN hlo1 hloN (by omega) rfl (by simpa using hlo) (by simpa using hhi)
      (fun d hd => hk d (by simp [hd])) (by simp) hs
    refine ⟨kv, b', n', ?_, hs2, ?_⟩
    · rw [popLast, popLastAt_eq]
      have e3 : (ks ++ [c]).length - 1 = ks.length := by simp
      simp only [List.getLast?_append, List.getLast?_singleton, Option.some_or, Option.map_some, e,
        e3, set_mid]
      simpa using e2
    · rw [ht2, toList_mk]
      have e1 := fun d => inter_append (ks1 := ks) (ks2 := [d]) (es1 := es) (es2 := []) (by omega)
      simp only [List.append_nil] at e1 ⊢
      rw [e1, e1]; simp [inter_cons, ht]

variable [Ord K] [TransOrd K]

theorem erase_ctx_eq {p : K → Ordering} {x : K × V} {pre r : List (K × V)}
    (hx : p x.1 = .eq) (h1 : AllGt p pre) (h2 : AllLt p r) :
    Spec.erase p (pre ++ x :: r) = pre ++ r := by
  have := erase_ctx (c := [x]) h1 h2
  simp only [List.append_assoc, List.cons_append, List.nil_append] at this
  rw [this]; simp [Spec.erase, hx]

/-- A correct outcome of `remove`. -/
def RemOk (N lo h : Nat) (p : K → Ordering) (L : List (K × V)) (r : Option (RemRes K V)) : Prop :=
  match Spec.find p L with
  | none => r = none
  | some e => ∃ b n', r = some (e, b, n') ∧ RemShape N lo h b n' ∧ toList n' = Spec.erase p L

theorem remove_spec {p : K → Ordering} (hp : IsProbe p) {N : Nat} (hN : 1 ≤ N) :
    ∀ {h lo : Nat} {n : Node K V}, Ok N lo h n → 1 ≤ lo → lo ≤ N → Sorted n.toList →
      ∃ r, remove N p n = some r ∧ RemOk N lo h p n.toList r := by
  intro h
  induction h with
  | zero =>
    intro lo n hn hlo1 hloN hs
    obtain ⟨es, ks⟩ := n
    obtain ⟨rfl, hlo, hhi⟩ := hn
    simp only [toList_mk, inter_nil] at hs ⊢
    rw [remove]
    by_cases hb : (locate p es).2 = true
    · obtain ⟨es1, x, es2, e, hi, hx, h1, h2⟩ := focus_leaf_eq hp hs hb
      rw [if_pos hb, ← hi]; subst e
      simp only [List.isEmpty_nil, if_true, vRemove_mid]
      refine ⟨_, rfl, ?_⟩
      rw [RemOk, find_single hx h1 h2]
      simp only [List.length_append, List.length_cons] at hlo hhi
      exact ⟨_, _, rfl, remShape_leaf hloN (by simp; omega) (by simp; omega),
        by rw [erase_ctx_eq hx h1 h2]; simp⟩
    · obtain ⟨es1, es2, e, hi, h1, h2⟩ := focus_leaf hp hs (by simpa using hb)
      rw [if_neg hb, removeAt_eq]; subst e
      simp only [List.getElem?_nil, Option.map_none]
      refine ⟨none, rfl, ?_⟩
      have e2 := find_ctx (c := []) h1 h2
      simp only [List.append_nil] at e2
      rw [RemOk, e2]; rfl
  | succ h ih =>
    intro lo n hn hlo1 hloN hs
    obtain ⟨es, ks⟩ := n
    obtain ⟨hl, hlo, hhi, hk⟩ := hn
    simp only [toList_mk] at hs ⊢
    rw [remove]
    have hne : ks.isEmpty = false := by cases ks <;> simp_all
    by_cases hb : (locate p es).2 = true
    · obtain ⟨es1, x, es2, ks1, c, ks2, e, e', hi, hl1, hl2, hx, e3, h1, h2⟩ :=
        focus_eq hp hl hs hb
      rw [if_pos hb, ← hi, e3, hne, popLastKid_eq]
      subst e'
      have hk1 : ∀ d ∈ ks1, Ok N N h d := fun d hd => hk d (by simp [hd])
      have hk2 : ∀ d ∈ ks2, Ok N N h d := fun d hd => hk d (by simp [hd])
      obtain ⟨kv, b, c', ep, hps, hpt⟩ := popLast_spec hN (hk c (by simp)) hN (Nat.le_refl N)
      have eget : (ks1 ++ c :: ks2)[es1.length]? = some c := by rw [← hl1, get_mid]
      have eset : ∀ d, (ks1 ++ c :: ks2).set es1.length d = ks1 ++ d :: ks2 := by
        intro d; rw [← hl1, set_mid]
      subst e
      simp only [List.length_append, List.length_cons] at hlo hhi
      obtain ⟨b', n', e2, hs2, ht2⟩ := afterKid_spec (es1 := es1) (ks1 := ks1) (es2 := kv :: es2)
        (ks2 := ks2) x hN hlo1 hloN hl1 (by simpa using hl2) (by simp; omega) (by simp; omega)
        hk1 hk2 hps
      simp only [Bool.false_eq_true, if_false, eget, Option.map_some, ep, get_mid, eset, set_mid, e2]
      refine ⟨_, rfl, ?_⟩
      rw [RemOk, find_single hx h1 h2]
      refine ⟨_, _, rfl, hs2, ?_⟩
      rw [erase_ctx_eq hx h1 h2, ht2, inter_append hl1, inter_cons, hpt]; simp
    · obtain ⟨es1, es2, ks1, c, ks2, e, e', hi, hl1, hl2, e3, h1, h2⟩ :=
        focus hp hl hs (by simpa using hb)
      rw [if_neg hb, removeAt_eq, descIdx_branch hl (locate_le _ _), ← hi, e3]
      have hk1 : ∀ d ∈ ks1, Ok N N h d := fun d hd => hk d (by simp [e', hd])
      have hk2 : ∀ d ∈ ks2, Ok N N h d := fun d hd => hk d (by simp [e', hd])
      have eget : ks[es1.length]? = some c := by rw [e', ← hl1, get_mid]
      have eset : ∀ d, ks.set es1.length d = ks1 ++ d :: ks2 := by
        intro d; rw [e', ← hl1, set_mid]
      rw [e3] at hs
      obtain ⟨r, er, hr⟩ := ih (hk c (by simp [e'])) hN (Nat.le_refl N) (sorted_kid hs)
      simp only [eget, Option.map_some, er, eset]
      rw [RemOk] at hr
      cases hf : Spec.find p (toList c) with
      | none =>
        rw [hf] at hr
        dsimp only at hr
        subst hr
        refine ⟨none, rfl, ?_⟩
        rw [RemOk, find_ctx h1 h2, hf]
      | some x =>
        rw [hf] at hr
        obtain ⟨b, c', rfl, hs', ht'⟩ := hr
        rw [e] at hlo hhi
        simp only [List.length_append] at hlo hhi
        obtain ⟨b', n', e2, hs2, ht2⟩ := afterKid_spec (es1 := es1) (ks1 := ks1) (es2 := es2)
          (ks2 := ks2) x hN hlo1 hloN hl1 hl2 hlo hhi hk1 hk2 hs'
        simp only [e, e2, Option.map_some]
        refine ⟨_, rfl, ?_⟩
        rw [RemOk, find_ctx h1 h2, hf]
        refine ⟨_, _, rfl, hs2, ?_⟩
        rw [erase_ctx h1 h2, ht2, inter_append hl1, inter_cons, ht']; simp

end Node
end Verif.BTree
