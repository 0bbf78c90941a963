import Verif.Wild.BTree
import Verif.Wild.Focus
/-!
# No comparison can break `BTreeMap`
-/
set_option linter.unusedVariables false
namespace Verif.BTree
open Verif.Wild
universe w
variable {σ : Type w} {K V : Type}

namespace Node

theorem locateW_ends (c : Cmp σ K) (es : List (K × V)) (s : σ) :
    ∃ r s', locateW c es s = (r, s') ∧ Scan c es r := ⟨_, _, rfl, locateW_scan c es s⟩

theorem containsAtW_eq (c : Cmp σ K) (s : σ) : ∀ (i : Nat) (ks : List (Node K V)),
    containsAtW c i ks s = match ks[i]? with
      | none => (.done false, s)
      | some n => containsW c n s
  | _, [] => by simp [containsAtW]
  | 0, n :: ks => by simp [containsAtW]
  | i + 1, n :: ks => by simp [containsAtW, containsAtW_eq c s i ks]

theorem containsW_spec (c : Cmp σ K) {N : Nat} :
    ∀ {h lo : Nat} {n : Node K V}, Ok N lo h n → ∀ s : σ,
      match (containsW c n s).1 with
      | .unwound _ => Panics c n.toList
      | .done b => b = true → ∃ e ∈ n.toList, Equals c e.1 := by
  intro h
  induction h with
  | zero =>
    intro lo n hn s
    obtain ⟨es, ks⟩ := n
    obtain ⟨rfl, hlo, -⟩ := hn
    obtain ⟨r, s', e, hr⟩ := locateW_ends c es s
    rw [containsW, e]
    rcases r with _ | ⟨i, _ | _⟩
    · simpa [Scan] using hr
    · simp [containsAtW]
    · obtain ⟨x, hx, he⟩ := hr
      exact fun _ => ⟨x, by simpa using List.mem_of_getElem? hx, he⟩
  | succ h ih =>
    intro lo n hn s
    obtain ⟨es, ks⟩ := n
    obtain ⟨hl, hlo, hhi, hk⟩ := hn
    obtain ⟨r, s', e, hr⟩ := locateW_ends c es s
    rw [containsW, e]
    rcases r with _ | ⟨i, _ | _⟩
    · simpa using Panics.mono hr (fun _ => mem_inter ks)
    · obtain ⟨es1, es2, ks1, n, ks2, rfl, rfl, rfl, hl1, hl2, e3⟩ := focusAt hl hr
      have h2 := ih (hk n (by simp)) s'
      have eget : (ks1 ++ n :: ks2)[es1.length]? = some n := by rw [← hl1, get_mid]
      simp only [containsAtW_eq, eget]
      have hsub : ∀ e ∈ toList n, e ∈ toList (mk (es1 ++ es2) (ks1 ++ n :: ks2)) := by
        intro e he; rw [toList_mk, e3]; simp [he]
      generalize (containsW c n s').1 = r at h2 ⊢
      cases r with
      | unwound => exact Panics.mono h2 hsub
      | done b =>
        intro hb
        obtain ⟨e, h3, h4⟩ := h2 hb
        exact ⟨e, hsub e h3, h4⟩
    · obtain ⟨x, hx, he⟩ := hr
      exact fun _ => ⟨x, by simpa using mem_inter ks (List.mem_of_getElem? hx), he⟩

theorem getAtW_eq (c : Cmp σ K) (s : σ) : ∀ (i : Nat) (ks : List (Node K V)),
    getAtW c i ks s = match ks[i]? with
      | none => some (.done none, s)
      | some n => getW c n s
  | _, [] => by simp [getAtW]
  | 0, n :: ks => by simp [getAtW]
  | i + 1, n :: ks => by simp [getAtW, getAtW_eq c s i ks]

theorem getMutAtW_eq (c : Cmp σ K) (g : V → V) (s : σ) :
    ∀ (i : Nat) (ks : List (Node K V)),
      getMutAtW c g i ks s = ks[i]?.map (fun n => getMutW c g n s)
  | _, [] => by simp [getMutAtW]
  | 0, n :: ks => by simp [getMutAtW]
  | i + 1, n :: ks => by simp [getMutAtW, getMutAtW_eq c g s i ks]

theorem insAtW_eq (N : Nat) (c : Cmp σ K) (k : K) (v : V) (s : σ) :
    ∀ (i : Nat) (ks : List (Node K V)),
      insAtW N c k v i ks s = ks[i]?.map (fun n => insW N c k v n s)
  | _, [] => by simp [insAtW]
  | 0, n :: ks => by simp [insAtW]
  | i + 1, n :: ks => by simp [insAtW, insAtW_eq N c k v s i ks]

theorem removeAtW_eq (N : Nat) (c : Cmp σ K) (s : σ) :
    ∀ (i : Nat) (ks : List (Node K V)),
      removeAtW N c i ks s = ks[i]?.map (fun n => removeW N c n s)
  | _, [] => by simp [removeAtW]
  | 0, n :: ks => by simp [removeAtW]
  | i + 1, n :: ks => by simp [removeAtW, removeAtW_eq N c s i ks]

variable {N : Nat} (c : Cmp σ K)

/-! ### Lookup -/

theorem getW_spec : ∀ {h lo : Nat} {n : Node K V}, Ok N lo h n → ∀ s : σ,
    ∃ r s', getW c n s = some (r, s') ∧
      match r with
      | .unwound _ => Panics c n.toList
      | .done e => Found c n.toList e := by
  intro h
  induction h with
  | zero =>
    intro lo n hn s
    obtain ⟨es, ks⟩ := n
    obtain ⟨rfl, hlo, -⟩ := hn
    obtain ⟨r, s', e, hr⟩ := locateW_ends c es s
    rw [getW, e]
    rcases r with _ | ⟨i, _ | _⟩
    · exact ⟨_, _, rfl, by simpa [Scan] using hr⟩
    · exact ⟨.done none, s', by simp [getAtW], by simp [Found]⟩
    · obtain ⟨x, hx, he⟩ := hr
      refine ⟨.done (some x), s', by simp [hx], ?_⟩
      rintro y ⟨⟩
      exact ⟨by simpa using List.mem_of_getElem? hx, he⟩
  | succ h ih =>
    intro lo n hn s
    obtain ⟨es, ks⟩ := n
    obtain ⟨hl, hlo, hhi, hk⟩ := hn
    obtain ⟨r, s', e, hr⟩ := locateW_ends c es s
    rw [getW, e]
    rcases r with _ | ⟨i, _ | _⟩
    · exact ⟨_, _, rfl, by simpa using Panics.mono hr (fun _ => mem_inter ks)⟩
    · obtain ⟨es1, es2, ks1, n, ks2, rfl, rfl, rfl, hl1, hl2, e3⟩ := focusAt hl hr
      obtain ⟨r, s'', er, h2⟩ := ih (hk n (by simp)) s'
      have edesc : descIdx es1.length (es1 ++ es2) (ks1 ++ n :: ks2).length = es1.length :=
        descIdx_eq hl hr
      have eget : (ks1 ++ n :: ks2)[es1.length]? = some n := by rw [← hl1, get_mid]
      refine ⟨r, s'', by simp only [getAtW_eq, edesc, eget, er], ?_⟩
      have hsub : ∀ e ∈ toList n, e ∈ toList (mk (es1 ++ es2) (ks1 ++ n :: ks2)) := by
        intro e he; rw [toList_mk, e3]; simp [he]
      cases r with
      | unwound => exact Panics.mono h2 hsub
      | done x => exact fun y hy => ⟨hsub _ (h2 y hy).1, (h2 y hy).2⟩
    · obtain ⟨x, hx, he⟩ := hr
      refine ⟨.done (some x), s', by simp [hx], ?_⟩
      rintro y ⟨⟩
      exact ⟨by simpa using mem_inter ks (List.mem_of_getElem? hx), he⟩

theorem getMutW_spec (g : V → V) :
    ∀ {h lo : Nat} {n : Node K V}, Ok N lo h n → ∀ s : σ,
    ∃ r s', getMutW c g n s = some (r, s') ∧
      match r with
      | .unwound n' => n' = n ∧ Panics c n.toList
      | .done (n', b) => Ok N lo h n' ∧ Wrote c g n.toList b n'.toList ∧ (b = false → n' = n) := by
  intro h
  induction h with
  | zero =>
    intro lo n hn s
    obtain ⟨es, ks⟩ := n
    obtain ⟨rfl, hlo, hhi⟩ := hn
    obtain ⟨r, s', e, hr⟩ := locateW_ends c es s
    rw [getMutW, e]
    rcases r with _ | ⟨i, _ | _⟩
    · exact ⟨_, _, rfl, rfl, by simpa [Scan] using hr⟩
    · exact ⟨.done (mk es [], false), s', by simp [getMutAtW], ⟨rfl, hlo, hhi⟩, rfl, fun _ => rfl⟩
    · obtain ⟨x, hx, he⟩ := hr
      obtain ⟨hlt, rfl⟩ := List.getElem?_eq_some_iff.1 hx
      obtain ⟨es1, y, es2, rfl, rfl⟩ := split_at es i hlt
      simp only [get_mid, Option.map_some, set_mid]
      refine ⟨_, _, rfl, ⟨rfl, by simpa using hlo, by simpa using hhi⟩,
        ⟨es1, y, es2, by simp, by simp, by simpa using he⟩, by simp⟩
  | succ h ih =>
    intro lo n hn s
    obtain ⟨es, ks⟩ := n
    obtain ⟨hl, hlo, hhi, hk⟩ := hn
    obtain ⟨r, s', e, hr⟩ := locateW_ends c es s
    rw [getMutW, e]
    rcases r with _ | ⟨i, _ | _⟩
    · exact ⟨_, _, rfl, rfl, by simpa using Panics.mono hr (fun _ => mem_inter ks)⟩
    · obtain ⟨es1, es2, ks1, n, ks2, rfl, rfl, rfl, hl1, hl2, e3⟩ := focusAt hl hr
      obtain ⟨r, s'', er, h2⟩ := ih (hk n (by simp)) s'
      have edesc : descIdx es1.length (es1 ++ es2) (ks1 ++ n :: ks2).length = es1.length :=
        descIdx_eq hl hr
      have eget : (ks1 ++ n :: ks2)[es1.length]? = some n := by rw [← hl1, get_mid]
      have eset : ∀ d, (ks1 ++ n :: ks2).set es1.length d = ks1 ++ d :: ks2 := by
        intro d; rw [← hl1, set_mid]
      simp only [getMutAtW_eq, edesc, eget, Option.map_some, er]
      rcases r with n' | ⟨n', b⟩
      · obtain ⟨rfl, hp⟩ := h2
        simp only [edesc, eset]
        refine ⟨_, _, rfl, rfl, Panics.mono hp ?_⟩
        intro e he; rw [toList_mk, e3]; simp [he]
      · obtain ⟨ho, hw, hb⟩ := h2
        simp only [edesc, eset]
        refine ⟨_, _, rfl, ⟨by simpa using hl, hlo, hhi, ?_⟩, ?_, ?_⟩
        · intro d hd
          simp only [List.mem_append, List.mem_cons] at hd
          rcases hd with hd | rfl | hd
          · exact hk d (by simp [hd])
          · exact ho
          · exact hk d (by simp [hd])
        · have := hw.ctx (inter ks1 es1) (post es2 ks2)
          rw [toList_mk, e3, toList_mk, inter_append hl1, inter_cons, ← List.append_assoc]
          exact this
        · intro e; rw [hb e]
    · obtain ⟨x, hx, he⟩ := hr
      obtain ⟨es1, es2, ks1, n, ks2, rfl, rfl, rfl, hl1, hl2, e3⟩ := focusEq hl hx
      simp only [get_mid, Option.map_some, set_mid]
      refine ⟨_, _, rfl, ⟨by simpa using hl, by simpa using hlo, by simpa using hhi, hk⟩,
        ⟨inter ks1 es1 ++ toList n, x, inter ks2 es2, by rw [toList_mk, e3], ?_, he⟩, by simp⟩
      rw [toList_mk, inter_append hl1, inter_cons, post_cons, List.append_assoc]

/-! ### Insertion -/

/-- What `insert` on a node may return. -/
def InsWOk (N lo h : Nat) (c : Cmp σ K) (k : K) (v : V) (n : Node K V) :
    Ends (Node K V) (InsRes K V) → Prop
  | .unwound n' => n' = n ∧ Panics c n.toList
  | .done (.replaced o n') => Ok N lo h n' ∧ Put c k v n.toList (some o) n'.toList
  | .done r => ∃ L, AbsOk N lo h L r ∧ Put c k v n.toList none L

theorem InsWOk.of_abs {lo h : Nat} {k : K} {v : V} {n : Node K V} {r : InsRes K V}
    {L : List (K × V)} (h1 : AbsOk N lo h L r) (h2 : Put c k v n.toList none L) :
    InsWOk N lo h c k v n (.done r) := by
  cases r with
  | replaced => exact h1.elim
  | absorbed => exact ⟨L, h1, h2⟩
  | split => exact ⟨L, h1, h2⟩

theorem insW_spec (k : K) (v : V) :
    ∀ {h lo : Nat} {n : Node K V}, Ok N lo h n → ∀ s : σ,
    ∃ r s', insW N c k v n s = some (r, s') ∧ InsWOk N lo h c k v n r := by
  intro h
  induction h with
  | zero =>
    intro lo n hn s
    obtain ⟨es, ks⟩ := n
    obtain ⟨rfl, hlo, hhi⟩ := hn
    obtain ⟨r, s', e, hr⟩ := locateW_ends c es s
    rw [insW, e]
    rcases r with _ | ⟨i, _ | _⟩
    · exact ⟨_, _, rfl, rfl, by simpa [Scan] using hr⟩
    · obtain ⟨es1, es2, rfl, rfl⟩ := split_len es i hr
      obtain ⟨r, er, ha⟩ := absorb_leaf (lo := lo) (k, v) (es1 := es1) (es2 := es2)
        (by simpa using hlo) (by simpa using hhi)
      refine ⟨.done r, s', by simp [insAtW, er], .of_abs c ha ⟨es1, es2, by simp, rfl⟩⟩
    · obtain ⟨x, hx, he⟩ := hr
      obtain ⟨hlt, rfl⟩ := List.getElem?_eq_some_iff.1 hx
      obtain ⟨es1, y, es2, rfl, rfl⟩ := split_at es i hlt
      simp only [get_mid, set_mid]
      exact ⟨_, _, rfl, ⟨rfl, by simpa using hlo, by simpa using hhi⟩,
        es1, y.1, es2, by simp, by simp, by simpa using he⟩
  | succ h ih =>
    intro lo n hn s
    obtain ⟨es, ks⟩ := n
    obtain ⟨hl, hlo, hhi, hk⟩ := hn
    obtain ⟨r, s', e, hr⟩ := locateW_ends c es s
    rw [insW, e]
    rcases r with _ | ⟨i, _ | _⟩
    · exact ⟨_, _, rfl, rfl, by simpa using Panics.mono hr (fun _ => mem_inter ks)⟩
    · obtain ⟨es1, es2, ks1, n, ks2, rfl, rfl, rfl, hl1, hl2, e3⟩ := focusAt hl hr
      obtain ⟨r, s'', er, h2⟩ := ih (hk n (by simp)) s'
      have edesc : descIdx es1.length (es1 ++ es2) (ks1 ++ n :: ks2).length = es1.length :=
        descIdx_eq hl hr
      have eget : (ks1 ++ n :: ks2)[es1.length]? = some n := by rw [← hl1, get_mid]
      have eset : ∀ d, (ks1 ++ n :: ks2).set es1.length d = ks1 ++ d :: ks2 := by
        intro d; rw [← hl1, set_mid]
      have hk1 : ∀ d ∈ ks1, Ok N N h d := fun d hd => hk d (by simp [hd])
      have hk2 : ∀ d ∈ ks2, Ok N N h d := fun d hd => hk d (by simp [hd])
      have hbody : ∀ d, Ok N N h d →
          Ok N lo (h + 1) (mk (es1 ++ es2) (ks1 ++ d :: ks2)) := by
        intro d hd
        refine ⟨by simpa using hl, hlo, hhi, ?_⟩
        intro x hx
        simp only [List.mem_append, List.mem_cons] at hx
        rcases hx with hx | rfl | hx
        · exact hk1 x hx
        · exact hd
        · exact hk2 x hx
      have htl : ∀ d : Node K V, toList (mk (es1 ++ es2) (ks1 ++ d :: ks2)) =
          inter ks1 es1 ++ toList d ++ post es2 ks2 := by
        intro d; rw [toList_mk, inter_append hl1, inter_cons, List.append_assoc]
      simp only [insAtW_eq, eget, Option.map_some, er]
      rcases r with n' | ⟨o, n'⟩ | ⟨a, kv, n'⟩ | n'
      · obtain ⟨rfl, hp⟩ := h2
        simp only [edesc, eset]
        refine ⟨_, _, rfl, rfl, Panics.mono hp ?_⟩
        intro e he; rw [htl]; simp [he]
      · obtain ⟨r1, r2⟩ := h2
        simp only [edesc, eset]
        refine ⟨_, _, rfl, hbody _ r1, ?_⟩
        rw [htl, htl]; exact r2.ctx _ _
      · obtain ⟨L, ⟨r1, r2, rfl⟩, r4⟩ := h2
        simp only [edesc, eset]
        obtain ⟨r, e, hr⟩ := absorb_branch (lo := lo) (kv := kv) hl1 hl2 (by simpa using hlo)
          (by simpa using hhi) hk1 hk2 r1 r2
        refine ⟨.done r, s'', by simp [e], .of_abs c hr ?_⟩
        rw [htl]; exact r4.ctx _ _
      · obtain ⟨L, ⟨r1, rfl⟩, r4⟩ := h2
        simp only [edesc, eset]
        refine ⟨_, _, rfl, _, ⟨hbody _ r1, rfl⟩, ?_⟩
        rw [htl, htl]; exact r4.ctx _ _
    · obtain ⟨x, hx, he⟩ := hr
      obtain ⟨es1, es2, ks1, n, ks2, rfl, rfl, rfl, hl1, hl2, e3⟩ := focusEq hl hx
      simp only [get_mid, set_mid]
      refine ⟨_, _, rfl, ⟨by simpa using hl, by simpa using hlo, by simpa using hhi, hk⟩,
        inter ks1 es1 ++ toList n, x.1, inter ks2 es2, by rw [toList_mk, e3], ?_, he⟩
      rw [toList_mk, inter_append hl1, inter_cons, post_cons, List.append_assoc]

/-! ### Removal -/

theorem removeW_spec (hN : 1 ≤ N) :
    ∀ {h lo : Nat} {n : Node K V}, Ok N lo h n → 1 ≤ lo → lo ≤ N → ∀ s : σ,
    ∃ r s', removeW N c n s = some (r, s') ∧
      match r with
      | .unwound n' => n' = n ∧ Panics c n.toList
      | .done none => True
      | .done (some (kv, b, n')) =>
        RemShape N lo h b n' ∧ Cut c n.toList (some kv) n'.toList := by
  intro h
  induction h with
  | zero =>
    intro lo n hn hlo1 hloN s
    obtain ⟨es, ks⟩ := n
    obtain ⟨rfl, hlo, hhi⟩ := hn
    obtain ⟨r, s', e, hr⟩ := locateW_ends c es s
    rw [removeW, e]
    rcases r with _ | ⟨i, _ | _⟩
    · exact ⟨_, _, rfl, rfl, by simpa [Scan] using hr⟩
    · exact ⟨.done none, s', by simp [removeAtW], trivial⟩
    · obtain ⟨x, hx, he⟩ := hr
      obtain ⟨hlt, rfl⟩ := List.getElem?_eq_some_iff.1 hx
      obtain ⟨es1, y, es2, rfl, rfl⟩ := split_at es i hlt
      simp only [List.length_append, List.length_cons] at hlo hhi
      simp only [List.isEmpty_nil, if_true, vRemove_mid]
      refine ⟨_, _, rfl, remShape_leaf hloN (by simp; omega) (by simp; omega), es1, es2,
        by simp, by simp, by simpa using he⟩
  | succ h ih =>
    intro lo n hn hlo1 hloN s
    obtain ⟨es, ks⟩ := n
    obtain ⟨hl, hlo, hhi, hk⟩ := hn
    obtain ⟨r, s', e, hr⟩ := locateW_ends c es s
    rw [removeW, e]
    rcases r with _ | ⟨i, _ | _⟩
    · exact ⟨_, _, rfl, rfl, by simpa using Panics.mono hr (fun _ => mem_inter ks)⟩
    · obtain ⟨es1, es2, ks1, n, ks2, rfl, rfl, rfl, hl1, hl2, e3⟩ := focusAt hl hr
      obtain ⟨r, s'', er, h2⟩ := ih (hk n (by simp)) hN (Nat.le_refl N) s'
      have edesc : descIdx es1.length (es1 ++ es2) (ks1 ++ n :: ks2).length = es1.length :=
        descIdx_eq hl hr
      have eget : (ks1 ++ n :: ks2)[es1.length]? = some n := by rw [← hl1, get_mid]
      have eset : ∀ d, (ks1 ++ n :: ks2).set es1.length d = ks1 ++ d :: ks2 := by
        intro d; rw [← hl1, set_mid]
      have hk1 : ∀ d ∈ ks1, Ok N N h d := fun d hd => hk d (by simp [hd])
      have hk2 : ∀ d ∈ ks2, Ok N N h d := fun d hd => hk d (by simp [hd])
      simp only [removeAtW_eq, edesc, eget, Option.map_some, er]
      rcases r with n' | _ | ⟨kv, b, n'⟩
      · obtain ⟨rfl, hp⟩ := h2
        simp only [edesc, eset]
        refine ⟨_, _, rfl, rfl, Panics.mono hp ?_⟩
        intro e he; rw [toList_mk, e3]; simp [he]
      · exact ⟨_, _, rfl, trivial⟩
      · obtain ⟨r1, r2⟩ := h2
        simp only [List.length_append] at hlo hhi
        obtain ⟨b', n'', e2, hs2, ht2⟩ := afterKid_spec (es1 := es1) (ks1 := ks1) (es2 := es2)
          (ks2 := ks2) kv hN hlo1 hloN hl1 hl2 hlo hhi hk1 hk2 r1
        simp only [edesc, eset, e2, Option.map_some]
        refine ⟨_, _, rfl, hs2, ?_⟩
        have := r2.ctx (inter ks1 es1) (post es2 ks2)
        rw [ht2, toList_mk, e3, inter_append hl1, inter_cons, ← List.append_assoc]
        exact this
    · obtain ⟨x, hx, he⟩ := hr
      obtain ⟨es1, es2, ks1, n, ks2, rfl, rfl, rfl, hl1, hl2, e3⟩ := focusEq hl hx
      have hne : (ks1 ++ n :: ks2).isEmpty = false := by cases ks1 <;> rfl
      have hk1 : ∀ d ∈ ks1, Ok N N h d := fun d hd => hk d (by simp [hd])
      have hk2 : ∀ d ∈ ks2, Ok N N h d := fun d hd => hk d (by simp [hd])
      have hkn : Ok N N h n := hk n (by simp)
      obtain ⟨kv, b, n', ep, hps, hpt⟩ := popLast_spec hN hkn hN (Nat.le_refl N)
      have eget : (ks1 ++ n :: ks2)[es1.length]? = some n := by rw [← hl1, get_mid]
      have eset : ∀ d, (ks1 ++ n :: ks2).set es1.length d = ks1 ++ d :: ks2 := by
        intro d; rw [← hl1, set_mid]
      simp only [List.length_append, List.length_cons] at hlo hhi
      obtain ⟨b', n'', e2, hs2, ht2⟩ := afterKid_spec (es1 := es1) (ks1 := ks1)
        (es2 := kv :: es2) (ks2 := ks2) x hN hlo1 hloN hl1 (by simpa using hl2)
        (by simp; omega) (by simp; omega) hk1 hk2 hps
      simp only [hne, Bool.false_eq_true, if_false, popLastKid_eq, eget, Option.map_some, ep,
        get_mid, eset, set_mid, e2]
      refine ⟨_, _, rfl, hs2, inter ks1 es1 ++ toList n, inter ks2 es2, by rw [toList_mk, e3],
        ?_, he⟩
      rw [ht2, inter_append hl1, inter_cons, post_cons, hpt]; simp

end Node
open Node
variable {N : Nat} (c : Cmp σ K)

/-! ### The map -/

namespace BTreeMap
variable (N)

theorem inv_new : (new : BTreeMap K V).Inv N := ⟨rfl, by simp [new]⟩

theorem getW_spec {m : BTreeMap K V} (hm : m.Inv N) (s : σ) :
    ∃ r s', m.getW c s = some (r, s') ∧
      match r with
      | .unwound _ => Panics c m.abs
      | .done e => Found c m.abs e := by
  obtain ⟨len, _ | n⟩ := m
  · exact ⟨_, _, rfl, by simp [Found]⟩
  · obtain ⟨h, hn⟩ := hm.shape n rfl
    exact Node.getW_spec c hn s

theorem containsW_spec {m : BTreeMap K V} (hm : m.Inv N) (s : σ) :
    match (m.containsW c s).1 with
    | .unwound _ => Panics c m.abs
    | .done b => b = true → ∃ e ∈ m.abs, Equals c e.1 := by
  obtain ⟨len, _ | n⟩ := m
  · simp [containsW]
  · obtain ⟨h, hn⟩ := hm.shape n rfl
    exact Node.containsW_spec c hn s

theorem getMutW_spec {m : BTreeMap K V} (hm : m.Inv N) (g : V → V) (s : σ) :
    ∃ r s', m.getMutW c g s = some (r, s') ∧
      match r with
      | .unwound m' => m' = m ∧ Panics c m.abs
      | .done (m', b) => m'.Inv N ∧ Wrote c g m.abs b m'.abs ∧ (b = false → m' = m) := by
  obtain ⟨len, _ | n⟩ := m
  · exact ⟨_, _, rfl, hm, rfl, fun _ => rfl⟩
  · obtain ⟨h, hn⟩ := hm.shape n rfl
    have hl : len = n.toList.length := hm.len
    obtain ⟨r, s', e, hr⟩ := Node.getMutW_spec c g hn s
    simp only [getMutW, e]
    rcases r with n' | ⟨n', b⟩
    · obtain ⟨rfl, hp⟩ := hr
      exact ⟨_, _, rfl, rfl, hp⟩
    · obtain ⟨h1, h2, h3⟩ := hr
      refine ⟨_, _, rfl, inv_some h1 (by rw [h2.length]; exact hl), h2, ?_⟩
      intro hb; rw [h3 hb]

theorem insertW_spec {m : BTreeMap K V} (hm : m.Inv N) (k : K) (v : V) (s : σ) :
    ∃ r s', m.insertW N c k v s = some (r, s') ∧
      match r with
      | .unwound m' => m' = m ∧ Panics c m.abs
      | .done (m', o) => m'.Inv N ∧ Put c k v m.abs o m'.abs := by
  obtain ⟨len, _ | n⟩ := m
  · refine ⟨_, _, rfl, inv_some (h := 0) ⟨rfl, by simp, by simp⟩ (by simp), [], [], rfl, ?_⟩
    simp [abs]
  · obtain ⟨h, hn⟩ := hm.shape n rfl
    have hl : len = n.toList.length := hm.len
    obtain ⟨r, s', e, hr⟩ := insW_spec c k v hn s
    simp only [insertW, e]
    rcases r with n' | ⟨o, n'⟩ | ⟨a, kv, n'⟩ | n'
    · obtain ⟨rfl, hp⟩ := hr
      exact ⟨_, _, rfl, rfl, hp⟩
    · obtain ⟨h1, h2⟩ := hr
      exact ⟨_, _, rfl, inv_some h1 (by rw [h2.length]; simpa using hl), h2⟩
    · obtain ⟨L, ⟨r1, r2, rfl⟩, r4⟩ := hr
      have e3 : Node.toList (Node.mk [kv] [a, n']) = a.toList ++ kv :: n'.toList := by
        simp [inter_cons]
      refine ⟨_, _, rfl, inv_some (h := h + 1) ⟨rfl, by simp, by simp, by simp [r1, r2]⟩ ?_, ?_⟩
      · rw [e3, r4.length]; simp [hl]
      · show Put c k v n.toList none (Node.toList (Node.mk [kv] [a, n']))
        rw [e3]; exact r4
    · obtain ⟨L, ⟨r1, rfl⟩, r4⟩ := hr
      exact ⟨_, _, rfl, inv_some r1 (by rw [r4.length]; simp [hl]), r4⟩

theorem takeW_spec (hN : 1 ≤ N) {m : BTreeMap K V} (hm : m.Inv N) (s : σ) :
    ∃ r s', m.takeW N c s = some (r, s') ∧
      match r with
      | .unwound m' => m' = m ∧ Panics c m.abs
      | .done (m', e) => m'.Inv N ∧ Cut c m.abs e m'.abs ∧ (e = none → m' = m) := by
  obtain ⟨len, _ | n⟩ := m
  · exact ⟨_, _, rfl, hm, rfl, fun _ => rfl⟩
  · obtain ⟨h, hn⟩ := hm.shape n rfl
    obtain ⟨r, s', e, hr⟩ := Node.removeW_spec c hN hn (Nat.le_refl 1) hN s
    simp only [takeW, e]
    rcases r with n' | _ | ⟨kv, b, n'⟩
    · obtain ⟨rfl, hp⟩ := hr
      exact ⟨_, _, rfl, rfl, hp⟩
    · exact ⟨_, _, rfl, hm, rfl, fun _ => rfl⟩
    · obtain ⟨h1, h2⟩ := hr
      have hlen := h2.length
      simp only [Option.isSome_some, if_true] at hlen
      obtain ⟨m', e', hi, ht⟩ := rmAndRebal_inv hN hm rfl
        (remover := fun _ => some (some (kv, b, n'))) rfl h1 hlen
      refine ⟨.done (m', some kv), s', by simp [e'], hi, ?_, by simp⟩
      rw [ht]; exact h2

theorem removeW_spec (hN : 1 ≤ N) {m : BTreeMap K V} (hm : m.Inv N) (s : σ) :
    ∃ r s', m.removeW N c s = some (r, s') ∧
      match r with
      | .unwound m' => m' = m ∧ Panics c m.abs
      | .done (m', e) => m'.Inv N ∧ Cut c m.abs e m'.abs ∧ (e = none → m' = m) := by
  have hc := containsW_spec N c hm s
  rw [removeW]
  generalize m.containsW c s = r at hc ⊢
  rcases r with ⟨_ | ⟨_ | _⟩, s'⟩
  · exact ⟨_, _, rfl, rfl, hc⟩
  · exact ⟨_, _, rfl, hm, rfl, fun _ => rfl⟩
  · exact takeW_spec N c hN hm s'

end BTreeMap
end Verif.BTree
