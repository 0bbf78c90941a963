import Verif.BTree.Shape
/-!
# B-tree insertion
-/
set_option linter.unusedSectionVars false
namespace Verif.BTree
open Std
universe u v
variable {K : Type u} {V : Type v}

namespace Node

/-- The part of `Ok` that does not bound the number of elements. -/
def Body (N : Nat) : Nat → List (K × V) → List (Node K V) → Prop
  | 0, _, ks => ks = []
  | h + 1, es, ks => ks.length = es.length + 1 ∧ ∀ c ∈ ks, Ok N N h c

theorem ok_iff {N lo h : Nat} {es : List (K × V)} {ks} :
    Ok N lo h (mk es ks) ↔ Body N h es ks ∧ lo ≤ es.length ∧ es.length ≤ 2 * N + 1 := by
  cases h with
  | zero => exact Iff.rfl
  | succ h =>
    constructor
    · rintro ⟨a, b, c, d⟩; exact ⟨⟨a, d⟩, b, c⟩
    · rintro ⟨⟨a, d⟩, b, c⟩; exact ⟨a, b, c, d⟩

/-- A correct outcome of absorbing a new separator. -/
def AbsOk (N lo h : Nat) (L : List (K × V)) : InsRes K V → Prop
  | .replaced _ _ => False
  | .absorbed n => Ok N lo h n ∧ toList n = L
  | .split a kv n => Ok N N h a ∧ Ok N N h n ∧ toList a ++ kv :: toList n = L

theorem split_spec {N h : Nat} {es : List (K × V)} {ks} (lo : Nat) (hb : Body N h es ks)
    (hl : es.length = 2 * N + 2) :
    ∃ r, split N es ks = some r ∧ AbsOk N lo h (inter ks es) r := by
  obtain ⟨es1, es2, rfl, h1⟩ := split_len es (N + 1) (by omega)
  obtain ⟨es0, mid, rfl⟩ := concat_of_pos es1 (by omega)
  simp only [List.length_append, List.length_cons, List.length_nil] at hl h1
  have hs : vSplitOff (N + 1) (es0 ++ [mid] ++ es2) = some (es0 ++ [mid], es2) := by
    have e1 := List.take_left' (l₁ := es0 ++ [mid]) (l₂ := es2) (i := N + 1) (by simpa using h1)
    have e2 := List.drop_left' (l₁ := es0 ++ [mid]) (l₂ := es2) (i := N + 1) (by simpa using h1)
    rw [vSplitOff, if_pos (by simp; omega), e1, e2]
  have hn : ¬ ((es0 ++ [mid] ++ es2).length ≤ 2 * N + 1) := by simp; omega
  cases h with
  | zero =>
    have : ks = [] := hb
    subst this
    refine ⟨.split (mk es0 []) mid (mk es2 []), ?_, ?_⟩
    · simp only [split, if_neg hn, hs, vPop_concat, List.isEmpty_nil, if_true]
    · refine ⟨⟨rfl, by omega, by omega⟩, ⟨rfl, by omega, by omega⟩, by simp⟩
  | succ h =>
    obtain ⟨hk, hc⟩ := hb
    obtain ⟨ks1, ks2, rfl, h2⟩ := split_len ks (N + 1) (by rw [hk]; simp; omega)
    simp only [List.length_append, List.length_cons, List.length_nil] at hk
    have hs2 : vSplitOff (N + 1) (ks1 ++ ks2) = some (ks1, ks2) := by
      rw [vSplitOff, if_pos (by simp; omega), List.take_left' h2, List.drop_left' h2]
    have hne : (ks1 ++ ks2).isEmpty = false := by
      cases ks1 with
      | nil => simp at h2
      | cons => rfl
    refine ⟨.split (mk es0 ks1) mid (mk es2 ks2), ?_, ?_⟩
    · simp only [split, if_neg hn, hs, vPop_concat, hne, hs2, Bool.false_eq_true, if_false]
    · refine ⟨⟨by omega, by omega, by omega, fun c hc' => hc c (by simp [hc'])⟩,
        ⟨by omega, by omega, by omega, fun c hc' => hc c (by simp [hc'])⟩, ?_⟩
      obtain ⟨ks0, d, rfl⟩ := concat_of_pos ks1 (by omega)
      simp only [List.length_append, List.length_cons, List.length_nil] at h2
      have e1 : inter (ks0 ++ [d]) es0 = inter ks0 es0 ++ toList d := by
        have := inter_append (ks1 := ks0) (ks2 := [d]) (es1 := es0) (es2 := []) (by omega)
        simpa [inter_cons] using this
      have e2 : inter (ks0 ++ [d] ++ ks2) (es0 ++ [mid] ++ es2) =
          inter ks0 es0 ++ (toList d ++ mid :: inter ks2 es2) := by
        have := inter_append (ks1 := ks0) (ks2 := d :: ks2) (es1 := es0) (es2 := mid :: es2)
          (by omega)
        simpa [inter_cons] using this
      simp only [toList_mk]
      rw [e1, e2]; simp

theorem finish {N lo h : Nat} {es : List (K × V)} {ks} (hb : Body N h es ks) (hlo : lo ≤ es.length)
    (hl : es.length ≤ 2 * N + 2) :
    ∃ r, (if es.length ≤ 2 * N + 1 then some (.absorbed (mk es ks)) else split N es ks) = some r ∧
      AbsOk N lo h (inter ks es) r := by
  by_cases hle : es.length ≤ 2 * N + 1
  · exact ⟨.absorbed (mk es ks), by rw [if_pos hle], ok_iff.2 ⟨hb, hlo, hle⟩, by simp⟩
  · rw [if_neg hle]; exact split_spec lo hb (by omega)

theorem absorb_leaf {N lo : Nat} (kv : K × V) {es1 es2 : List (K × V)}
    (hlo : lo ≤ es1.length + es2.length) (hl : es1.length + es2.length ≤ 2 * N + 1) :
    ∃ r, absorb N es1.length none kv (es1 ++ es2) [] = some r ∧
      AbsOk N lo 0 (es1 ++ kv :: es2) r := by
  simp only [absorb, vInsert_mid]
  obtain ⟨r, e, h⟩ := finish (N := N) (lo := lo) (h := 0) (es := es1 ++ kv :: es2) (ks := [])
    rfl (by simp; omega) (by simp; omega)
  exact ⟨r, e, by simpa using h⟩

theorem absorb_branch {N lo h : Nat} {kv : K × V} {es1 es2 : List (K × V)} {ks1 ks2}
    {a c : Node K V} (h1 : ks1.length = es1.length) (h2 : ks2.length = es2.length)
    (hlo : lo ≤ es1.length + es2.length) (hl : es1.length + es2.length ≤ 2 * N + 1)
    (hk1 : ∀ d ∈ ks1, Ok N N h d) (hk2 : ∀ d ∈ ks2, Ok N N h d) (ha : Ok N N h a)
    (hc : Ok N N h c) :
    ∃ r, absorb N es1.length (some a) kv (es1 ++ es2) (ks1 ++ c :: ks2) = some r ∧
      AbsOk N lo (h + 1) (inter ks1 es1 ++ (toList a ++ kv :: toList c) ++ post es2 ks2) r := by
  have e1 : vInsert es1.length a (ks1 ++ c :: ks2) = some (ks1 ++ a :: c :: ks2) := by
    rw [← h1, vInsert_mid]
  simp only [absorb, vInsert_mid, e1]
  obtain ⟨r, e, hr⟩ := finish (N := N) (lo := lo) (h := h + 1) (es := es1 ++ kv :: es2)
    (ks := ks1 ++ a :: c :: ks2) (by
      refine ⟨by simp; omega, ?_⟩
      intro d hd
      simp only [List.mem_append, List.mem_cons] at hd
      rcases hd with hd | rfl | rfl | hd
      · exact hk1 d hd
      · exact ha
      · exact hc
      · exact hk2 d hd) (by simp; omega) (by simp; omega)
  refine ⟨r, e, ?_⟩
  rw [inter_append h1, inter_cons, post_cons, inter_cons] at hr
  simpa using hr

variable [Ord K] [TransOrd K]

/-- A correct outcome of `insert`. -/
def InsOk (N lo h : Nat) (k : K) (v : V) (L : List (K × V)) : InsRes K V → Prop
  | .replaced o n => Ok N lo h n ∧ toList n = Spec.insert k v L ∧
      (Spec.find (compare k) L).map (·.2) = some o
  | r => AbsOk N lo h (Spec.insert k v L) r ∧ Spec.find (compare k) L = none

theorem InsOk.of_abs {N lo h : Nat} {k : K} {v : V} {L : List (K × V)} {r : InsRes K V}
    (h1 : AbsOk N lo h (Spec.insert k v L) r) (h2 : Spec.find (compare k) L = none) :
    InsOk N lo h k v L r := by
  cases r with
  | replaced => exact h1.elim
  | absorbed => exact ⟨h1, h2⟩
  | split => exact ⟨h1, h2⟩

theorem insert_ctx_eq {k : K} {v : V} {x : K × V} {pre r : List (K × V)}
    (hx : compare k x.1 = .eq) (h1 : AllGt (compare k) pre) (h2 : AllLt (compare k) r) :
    Spec.insert k v (pre ++ x :: r) = pre ++ (k, v) :: r := by
  have := insert_ctx (c := [x]) (v := v) h1 h2
  simp only [List.append_assoc, List.cons_append, List.nil_append] at this
  rw [this]; simp [Spec.insert, hx]

theorem ins_spec {N : Nat} (k : K) (v : V) :
    ∀ {h lo : Nat} {n : Node K V}, Ok N lo h n → Sorted n.toList →
      ∃ r, ins N k v n = some r ∧ InsOk N lo h k v n.toList r := by
  have hp := isProbe_compare k
  intro h
  induction h with
  | zero =>
    intro lo n hn hs
    obtain ⟨es, ks⟩ := n
    obtain ⟨rfl, hlo, hhi⟩ := hn
    simp only [toList_mk, inter_nil] at hs ⊢
    rw [ins]
    by_cases hb : (locate (compare k) es).2 = true
    · obtain ⟨es1, x, es2, e, hi, hx, h1, h2⟩ := focus_leaf_eq hp hs hb
      rw [if_pos hb, ← hi]; subst e
      rw [get_mid]
      dsimp only
      rw [set_mid]
      refine ⟨_, rfl, ⟨rfl, by simpa using hlo, by simpa using hhi⟩, ?_, ?_⟩
      · rw [insert_ctx_eq hx h1 h2]; simp
      · rw [find_single hx h1 h2]; rfl
    · obtain ⟨es1, es2, e, hi, h1, h2⟩ := focus_leaf hp hs (by simpa using hb)
      rw [if_neg hb, insAt_eq, ← hi]; subst e
      simp only [List.getElem?_nil, Option.map_none]
      obtain ⟨r, e, hr⟩ := absorb_leaf (N := N) (lo := lo) (k, v) (es1 := es1) (es2 := es2)
        (by simpa using hlo) (by simpa using hhi)
      have e1 := insert_ctx (c := []) (v := v) h1 h2
      have e2 := find_ctx (c := []) h1 h2
      simp only [List.append_nil] at e1 e2
      refine ⟨r, e, .of_abs ?_ ?_⟩
      · rw [e1]; simpa [Spec.insert] using hr
      · rw [e2]; rfl
  | succ h ih =>
    intro lo n hn hs
    obtain ⟨es, ks⟩ := n
    obtain ⟨hl, hlo, hhi, hk⟩ := hn
    simp only [toList_mk] at hs ⊢
    rw [ins]
    by_cases hb : (locate (compare k) es).2 = true
    · obtain ⟨es1, x, es2, ks1, c, ks2, e, e', hi, hl1, -, hx, e3, h1, h2⟩ := focus_eq hp hl hs hb
      rw [if_pos hb, ← hi, e3]; subst e; subst e'
      rw [get_mid]
      dsimp only
      rw [set_mid]
      refine ⟨_, rfl, ⟨by simpa using hl, by simpa using hlo, by simpa using hhi, hk⟩, ?_, ?_⟩
      · rw [insert_ctx_eq hx h1 h2, toList_mk, inter_append hl1, inter_cons]; simp
      · rw [find_single hx h1 h2]; rfl
    · obtain ⟨es1, es2, ks1, c, ks2, e, e', hi, hl1, hl2, e3, h1, h2⟩ :=
        focus hp hl hs (by simpa using hb)
      rw [if_neg hb, insAt_eq, ← hi, e3]
      have hk1 : ∀ d ∈ ks1, Ok N N h d := fun d hd => hk d (by simp [e', hd])
      have hk2 : ∀ d ∈ ks2, Ok N N h d := fun d hd => hk d (by simp [e', hd])
      have hkc : Ok N N h c := hk c (by simp [e'])
      rw [e3] at hs
      obtain ⟨r, er, hr⟩ := ih hkc (sorted_kid hs)
      have eget : ks[es1.length]? = some c := by rw [e', ← hl1, get_mid]
      have eset : ∀ d, ks.set es1.length d = ks1 ++ d :: ks2 := by
        intro d; rw [e', ← hl1, set_mid]
      have hlo' : lo ≤ es1.length + es2.length := by rw [e] at hlo; simpa using hlo
      have hhi' : es1.length + es2.length ≤ 2 * N + 1 := by rw [e] at hhi; simpa using hhi
      have hbody : ∀ d, Ok N N h d → Ok N lo (h + 1) (mk (es1 ++ es2) (ks1 ++ d :: ks2)) := by
        intro d hd
        refine ⟨by simp; omega, by simpa using hlo', by simpa using hhi', ?_⟩
        intro x hx
        simp only [List.mem_append, List.mem_cons] at hx
        rcases hx with hx | rfl | hx
        · exact hk1 x hx
        · exact hd
        · exact hk2 x hx
      have htl : ∀ d : Node K V, toList (mk (es1 ++ es2) (ks1 ++ d :: ks2)) =
          inter ks1 es1 ++ toList d ++ post es2 ks2 := by
        intro d; rw [toList_mk, inter_append hl1, inter_cons, List.append_assoc]
      simp only [eget, Option.map_some, er, eset]
      rw [e]
      cases r with
      | replaced o c' =>
        obtain ⟨r1, r2, r3⟩ := hr
        refine ⟨_, rfl, hbody _ r1, ?_, ?_⟩
        · rw [htl, r2, insert_ctx h1 h2]
        · rw [find_ctx h1 h2]; exact r3
      | absorbed c' =>
        obtain ⟨⟨r1, r2⟩, r3⟩ := hr
        refine ⟨_, rfl, ⟨hbody _ r1, ?_⟩, ?_⟩
        · rw [htl, r2, insert_ctx h1 h2]
        · rw [find_ctx h1 h2]; exact r3
      | split a kv c' =>
        obtain ⟨⟨r1, r2, r4⟩, r3⟩ := hr
        obtain ⟨r, e, hr⟩ := absorb_branch (lo := lo) (kv := kv) hl1 hl2 hlo' hhi' hk1 hk2 r1 r2
        refine ⟨r, e, .of_abs ?_ ?_⟩
        · rw [r4] at hr; rw [insert_ctx h1 h2]; exact hr
        · rw [find_ctx h1 h2]; exact r3

end Node
end Verif.BTree
