import Verif.BTree.Chk
/-!
# `BTreeMap::chk` accepts every valid map
-/
set_option linter.unusedSectionVars false
namespace Verif.BTree
open Std Node
universe u v
variable {K : Type u} {V : Type v} [Ord K] [TransOrd K]

/-- What `chk` says of a child (possibly absent) of a valid node. -/
def KidGood (N ht : Nat) (c : Option (Node K V)) : Prop :=
  match c with
  | none => ht = 0
  | some c => ∀ prev, Above prev c.toList →
      c.chk N prev N = some (.ok (ht, c.toList.length, lastKey prev c.toList))

theorem KidGood.ptr {N ht : Nat} {c : Option (Node K V)} (h : KidGood N ht c) (prev : Option K)
    (ha : Above prev (optList c)) :
    chkPtr (c.map (fun c prev => c.chk N prev N)) prev =
      some (.ok (ht, (optList c).length, lastKey prev (optList c))) := by
  cases c with
  | none => have h : ht = 0 := h; subst h; rfl
  | some c => exact h prev ha

theorem lastKey_lt {l : List (K × V)} {p k : K} (hp : compare p k = .lt)
    (hl : ∀ e ∈ l, compare e.1 k = .lt) :
    ∃ g, lastKey (some p) l = some g ∧ compare g k = .lt := by
  rcases List.eq_nil_or_concat l with rfl | ⟨l', x, rfl⟩
  · exact ⟨p, by simp [lastKey], hp⟩
  · exact ⟨x.1, by simp [lastKey], hl x (by simp)⟩

theorem chkLoop_complete {N ht : Nat} {ks : List (Node K V)} :
    ∀ (es : List (K × V)) (i len : Nat) (pred : K),
    (∀ j, j < es.length → KidGood N ht ks[i + j]?) →
    Sorted (inter ((ks.drop i).take es.length) es) →
    Above (some pred) (inter ((ks.drop i).take es.length) es) →
    chkLoop (Node.chkFns N ks) ht i es len pred =
      some (.ok (len + (inter ((ks.drop i).take es.length) es).length - es.length,
        (lastKey (some pred) es).getD pred)) := by
  intro es
  induction es with
  | nil => intro i len pred _ _ _; simp [chkLoop, lastKey]
  | cons e es ih =>
    intro i len pred hk hs ha
    have hfi : (Node.chkFns N ks)[i]? = (ks[i]?).map (fun c prev => c.chk N prev N) := by
      rw [chkFns_eq]; simp
    have hin : inter ((ks.drop i).take (e :: es).length) (e :: es) =
        optList ks[i]? ++ e :: inter ((ks.drop (i + 1)).take es.length) es := by
      cases hc : ks[i]? with
      | none =>
        rw [List.getElem?_eq_none_iff] at hc
        have h1 : ks.drop i = [] := by simp; omega
        have h2 : ks.drop (i + 1) = [] := by simp; omega
        simp [h1, h2, optList]
      | some c =>
        rw [List.getElem?_eq_some_iff] at hc
        obtain ⟨hi, rfl⟩ := hc
        rw [List.drop_eq_getElem_cons hi]
        simp only [List.length_cons, List.take_succ_cons, inter_cons, post_cons, optList]
    rw [hin] at hs ha ⊢
    obtain ⟨s1, s2, s3⟩ := sorted_append.1 hs
    obtain ⟨s4, s5⟩ := sorted_cons.1 s2
    have hle : es.length ≤ (inter ((ks.drop (i + 1)).take es.length) es).length :=
      (elems_sublist _ _).length_le
    rw [chkLoop, hfi, ← Nat.add_zero i, (hk 0 (by simp)).ptr (some pred) (fun p hp b hb =>
      ha p hp b (by rw [Nat.add_zero] at hb; simp [hb])), Nat.add_zero]
    obtain ⟨g, hg, hlt⟩ := lastKey_lt (l := optList ks[i]?) (ha pred rfl e (by simp))
      (fun x hx => s3 x hx e (by simp))
    simp only [hg, ne_eq, not_true_eq_false, if_false, hlt]
    rw [if_neg (by simp), ih (i + 1) _ e.1 (fun j hj => by
      have := hk (j + 1) (by simpa using hj)
      rwa [← Nat.add_assoc, Nat.add_right_comm] at this) s5 (by
      rintro p ⟨⟩ b hb; exact s4 b hb)]
    congr 3
    · simp only [List.length_append, List.length_cons]; omega
    · cases es with
      | nil => simp [lastKey]
      | cons y ys =>
        cases hl : (y :: ys).getLast? with
        | none => simp at hl
        | some z => simp [lastKey, hl, List.getLast?_cons_cons]

theorem kid_sublist {c : Node K V} : ∀ {ks : List (Node K V)} {es : List (K × V)}, c ∈ ks →
    c.toList.Sublist (inter ks es)
  | d :: ks, es, h => by
    rw [inter_cons]
    rcases List.mem_cons.1 h with rfl | h
    · exact List.sublist_append_left _ _
    · refine List.Sublist.trans ?_ (List.sublist_append_right _ _)
      cases es with
      | nil => exact kid_sublist h
      | cons e es => exact (kid_sublist h).cons _

/-- `chk` accepts a valid tree above `prev`. -/
theorem chk_complete {N : Nat} (hN : 1 ≤ N) : ∀ {h lo : Nat} {n : Node K V}, Node.Ok N lo h n →
    (lo = 1 ∨ lo = N) → Sorted n.toList → ∀ prev, Above prev n.toList →
    n.chk N prev lo = some (.ok (h + 1, n.toList.length, lastKey prev n.toList)) := by
  intro h
  induction h with
  | zero =>
    intro lo n hn hlo hs prev ha
    obtain ⟨es, ks⟩ := n
    obtain ⟨rfl, h1, h2⟩ := hn
    have hlo' : 1 ≤ lo := by omega
    obtain ⟨e, es', rfl⟩ : ∃ e es', es = e :: es' := by
      cases es with
      | nil => simp at h1; omega
      | cons e es' => exact ⟨e, es', rfl⟩
    simp only [toList_mk, inter_nil] at hs ha ⊢
    rw [Node.chk, chkBody, if_neg (not_not_intro hlo), if_neg (by omega), if_neg (by omega)]
    simp only [Node.chkFns, List.getElem?_nil, chkPtr]
    have hg : ¬ prev.any (fun g => compare g e.1 != .lt) = true := by
      cases prev with
      | none => simp
      | some p => simpa using ha p rfl e (by simp)
    rw [if_neg hg]
    have := chkLoop_complete (N := N) (ht := 0) (ks := ([] : List (Node K V))) es' 1 0 e.1
      (fun j _ => by simp [KidGood]) (by simpa using (sorted_cons.1 hs).2)
      (by rintro p ⟨⟩ b hb; exact (sorted_cons.1 hs).1 b (by simpa using hb))
    simp only [Node.chkFns] at this
    rw [this]
    simp only [List.getLast?_nil, chkPtr, ne_eq, not_true_eq_false, if_false]
    congr 4
    · simp
    · have := lastKey_append_cons prev [] es' e
      rw [List.nil_append] at this
      rw [this]
      cases es' with
      | nil => simp [lastKey]
      | cons y ys =>
        cases hl : (y :: ys).getLast? with
        | none => simp at hl
        | some z => simp [lastKey, hl]
  | succ h ih =>
    intro lo n hn hlo hs prev ha
    obtain ⟨es, ks⟩ := n
    obtain ⟨hlen, h1, h2, hkids⟩ := hn
    obtain ⟨e, es', rfl⟩ : ∃ e es', es = e :: es' := by
      cases es with
      | nil => simp at h1; omega
      | cons e es' => exact ⟨e, es', rfl⟩
    simp only [List.length_cons] at hlen
    cases ks with
    | nil => simp at hlen
    | cons c0 ks =>
    rcases List.eq_nil_or_concat ks with rfl | ⟨mid, cl, rfl⟩
    · simp at hlen
    simp only [List.concat_eq_append] at *
    have hmid : mid.length = es'.length := by simp at hlen; omega
    have htl : toList (mk (e :: es') (c0 :: (mid ++ [cl]))) =
        c0.toList ++ e :: (inter mid es' ++ cl.toList) := by
      rw [toList_mk, inter_cons, post_cons]
      have := inter_append (ks2 := [cl]) (es2 := []) hmid
      rw [List.append_nil] at this
      rw [this]; simp [inter_cons]
    rw [htl] at hs ha ⊢
    obtain ⟨s1, s2, s3⟩ := sorted_append.1 hs
    obtain ⟨s4, s5⟩ := sorted_cons.1 s2
    obtain ⟨s6, s7, s8⟩ := sorted_append.1 s5
    have hmids : ∀ c ∈ mid, Sorted c.toList := by
      intro c hc
      exact List.Pairwise.sublist (kid_sublist hc) s6
    have hok : ∀ c ∈ c0 :: (mid ++ [cl]), KidGood N (h + 1) (some c) := by
      intro c hc prev hp
      refine ih (hkids c hc) (Or.inr rfl) ?_ prev hp
      rcases List.mem_cons.1 hc with rfl | hc
      · exact s1
      · rcases List.mem_append.1 hc with hc | hc
        · exact hmids c hc
        · simp at hc; subst hc; exact s7
    have hf0 : (Node.chkFns N (c0 :: (mid ++ [cl])))[0]? = some (fun prev => c0.chk N prev N) := by
      rw [chkFns_eq]; simp
    have hfl : (Node.chkFns N (c0 :: (mid ++ [cl]))).getLast? = some (fun prev => cl.chk N prev N) := by
      rw [chkFns_eq, List.getLast?_map, ← List.cons_append, List.getLast?_concat]; simp
    rw [Node.chk, chkBody, if_neg (not_not_intro hlo), if_neg (by omega), if_neg (by omega), hf0,
      hfl]
    simp only [chkPtr]
    rw [hok c0 (by simp) prev (fun p hp b hb => ha p hp b (by simp [hb]))]
    simp only
    have hgt : ¬ (lastKey prev c0.toList).any (fun g => compare g e.1 != .lt) = true := by
      cases prev with
      | none =>
        cases hl : c0.toList.getLast? with
        | none => simp [lastKey, hl]
        | some z => simpa [lastKey, hl] using s3 z (List.mem_of_getLast? hl) e (by simp)
      | some p =>
        obtain ⟨g, hg, hlt⟩ := lastKey_lt (l := c0.toList) (ha p rfl e (by simp))
          (fun x hx => s3 x hx e (by simp))
        simpa [hg] using hlt
    rw [if_neg hgt]
    have hdr : ((c0 :: (mid ++ [cl])).drop 1).take es'.length = mid := by
      rw [List.drop_succ_cons, List.drop_zero, ← hmid]; simp
    have hloop := chkLoop_complete (N := N) (ht := h + 1) (ks := c0 :: (mid ++ [cl])) es' 1
      c0.toList.length e.1 (fun j hj => by
        have : (c0 :: (mid ++ [cl]))[1 + j]? = some mid[j] := by
          rw [Nat.add_comm, List.getElem?_cons_succ, List.getElem?_append_left (by omega)]
          simp
        rw [this]
        exact hok _ (by simp)) (by rw [hdr]; exact s6)
      (by rw [hdr]; rintro p ⟨⟩ b hb; exact s4 b (by simp [hb]))
    rw [hdr] at hloop
    rw [hloop]
    simp only
    have hpred : Above (some ((lastKey (some e.1) es').getD e.1)) cl.toList := by
      rintro p ⟨⟩ b hb
      rcases List.eq_nil_or_concat es' with rfl | ⟨es2, el, rfl⟩
      · simpa [lastKey] using s4 b (by simp [hb])
      · have : el ∈ inter mid (es2 ++ [el]) := (elems_sublist _ _).subset (by simp)
        simpa [lastKey] using s8 el (by simpa using this) b hb
    rw [hok cl (by simp) _ hpred]
    simp only [ne_eq, not_true_eq_false, if_false]
    have hle : es'.length ≤ (inter mid es').length := (elems_sublist mid es').length_le
    have hne : cl.toList ≠ [] := by
      have := (hkids cl (by simp)).lo_le
      intro h0
      have h3 := (elems_sublist cl.kids cl.elems).length_le
      obtain ⟨ces, cks⟩ := cl
      simp only [toList_mk] at h0
      simp only [elems, kids] at this h3
      rw [h0] at h3
      simp at h3
      subst h3
      simp at this
      omega
    congr 4
    · simp only [List.length_append, List.length_cons]; omega
    · rcases List.eq_nil_or_concat cl.toList with h0 | ⟨l', x, h0⟩
      · exact absurd h0 hne
      · have : c0.toList ++ e :: (inter mid es' ++ (l' ++ [x])) =
            (c0.toList ++ e :: (inter mid es' ++ l')) ++ [x] := by simp
        rw [h0, List.concat_eq_append, this]
        simp only [lastKey, List.getLast?_concat]

/-- On maps without excess children `chk` does not panic, and accepts exactly the valid maps. -/
theorem BTreeMap.chk_iff {N : Nat} (hN : 1 ≤ N) {m : BTreeMap K V}
    (hm : ∀ n, m.root = some n → NoExtra n) :
    ∃ r, m.chk N = some r ∧ (r = .ok () ↔ WF N m) := by
  obtain ⟨len, root⟩ := m
  cases root with
  | none =>
    rw [BTreeMap.chk, WF]
    by_cases h : len = 0
    · subst h; exact ⟨_, rfl, by simp⟩
    · refine ⟨.error (.badLen 0), ?_, by simpa using h⟩
      simp [chkPtr, Ne.symm h]
  | some n =>
    obtain ⟨r, h1, h2⟩ := chk_sound' hN (hm n rfl) none 1 (Or.inl rfl)
    rw [BTreeMap.chk]
    simp only [Option.map_some, chkPtr, h1]
    cases r with
    | error e =>
      refine ⟨_, rfl, by simp, ?_⟩
      rintro ⟨⟨h, h3⟩, h4, h5⟩
      have := chk_complete hN h3 (Or.inl rfl) h4 none (by simp [Above])
      rw [h1] at this
      cases this
    | ok x =>
      obtain ⟨ht, l, g⟩ := x
      obtain ⟨a1, a2, a3, a4, a5, a6, a7⟩ := h2 ht l g rfl
      simp only
      by_cases h : l = len
      · rw [if_pos h]
        exact ⟨_, rfl, by simpa using ⟨⟨_, a2⟩, a3, by rw [← h, a5]⟩⟩
      · rw [if_neg h]
        refine ⟨_, rfl, by simp, ?_⟩
        rintro ⟨-, -, h5⟩
        exact absurd (a5.trans h5.symm) h

end Verif.BTree
