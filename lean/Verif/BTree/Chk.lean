import Verif.BTree.Range
/-!
# Invariant checking of `BTreeMap` (btree.rs:2162-2256)
-/
set_option linter.unusedSectionVars false
namespace Verif.BTree
open Std Node
universe u v
variable {K : Type u} {V : Type v}

/-- btree.rs:17-23 `MapErr`. -/
inductive MapErr where
  | badLen (n : Nat) | imbalanced | overpopulated | underpopulated | unsorted
  deriving DecidableEq, Repr

/-- btree.rs:2162-2166 `Check`: height, length, greatest key. -/
abbrev Check (K : Type u) := Nat × Nat × Option K

/-- Outcome of `chk`; `none` is a panic. -/
abbrev ChkRes (K : Type u) := Option (Except MapErr (Check K))

/-- btree.rs:2168-2182 `chk_node_ptr`, given the check of the node if there is one. -/
def chkPtr (f : Option (Option K → ChkRes K)) (pred : Option K) : ChkRes K :=
  match f with
  | some f => f pred
  | none => some (.ok (0, 0, pred))

/-- btree.rs:2214-2228, the loop over the elements after the first (`i` is the index of the
next one); `fs` are the checks of the children.  Yields the length and the last key. -/
def chkLoop [Ord K] (fs : List (Option K → ChkRes K)) (ht : Nat) :
    Nat → List (K × V) → Nat → K → Option (Except MapErr (Nat × K))
  | _, [], len, pred => some (.ok (len, pred))
  | i, e :: es, len, pred =>
    match chkPtr fs[i]? (some pred) with
    | none => none
    | some (.error err) => some (.error err)
    | some (.ok (cht, clen, g)) =>
      if ht ≠ cht then some (.error .imbalanced)
      else
        match g with
        | none => none -- `unwrap`
        | some g =>
          if compare g e.1 != .lt then some (.error .unsorted)
          else chkLoop fs ht (i + 1) es (len + clen) e.1

/-- btree.rs:2185-2244 `Node::chk` without the recursion. -/
def chkBody [Ord K] (N : Nat) (es : List (K × V)) (fs : List (Option K → ChkRes K))
    (prev : Option K) (minPop : Nat) : ChkRes K :=
  if ¬ (minPop = 1 ∨ minPop = N) then none
  else if es.length < minPop then some (.error .underpopulated)
  else if es.length > 2 * N + 1 then some (.error .overpopulated)
  else
    match chkPtr fs[0]? prev with
    | none => none
    | some (.error err) => some (.error err)
    | some (.ok (ht, len, g)) =>
      match es with
      | [] => none -- `self.key(0)`
      | e :: es' =>
        if g.any (fun g => compare g e.1 != .lt) then some (.error .unsorted)
        else
          match chkLoop fs ht 1 es' len e.1 with
          | none => none
          | some (.error err) => some (.error err)
          | some (.ok (len, pred)) =>
            match chkPtr fs.getLast? (some pred) with
            | none => none
            | some (.error err) => some (.error err)
            | some (.ok (cht, clen, g)) =>
              if ht ≠ cht then some (.error .imbalanced)
              else some (.ok (ht + 1, es.length + len + clen, g))

mutual
/-- btree.rs:2185-2244 `Node::chk`. -/
def Node.chk [Ord K] (N : Nat) : Node K V → Option K → Nat → ChkRes K
  | .mk es ks => chkBody N es (Node.chkFns N ks)
/-- The checks of the children, which are always called with `min_pop = N`. -/
def Node.chkFns [Ord K] (N : Nat) : List (Node K V) → List (Option K → ChkRes K)
  | [] => []
  | c :: ks => (fun prev => Node.chk N c prev N) :: Node.chkFns N ks
end

/-- btree.rs:2248-2255 `BTreeMap::chk`. -/
def BTreeMap.chk [Ord K] (N : Nat) (m : BTreeMap K V) : Option (Except MapErr Unit) :=
  match chkPtr (m.root.map (fun n prev => n.chk N prev 1)) none with
  | none => none
  | some (.error e) => some (.error e)
  | some (.ok (_, len, _)) => if len = m.len then some (.ok ()) else some (.error (.badLen len))

theorem chkFns_eq [Ord K] (N : Nat) (ks : List (Node K V)) :
    Node.chkFns N ks = ks.map (fun c prev => c.chk N prev N) := by
  induction ks with
  | nil => simp [Node.chkFns]
  | cons c ks ih => simp [Node.chkFns, ih]

/-- `MapErr::BadLen` is not an error of `Node::chk`. -/
def NoBadLen (f : Option K → ChkRes K) : Prop :=
  ∀ prev c, f prev ≠ some (.error (.badLen c))

theorem chkPtr_ne {f : Option (Option K → ChkRes K)} (h : ∀ g, f = some g → NoBadLen g)
    (prev : Option K) (c : Nat) : chkPtr f prev ≠ some (.error (.badLen c)) := by
  cases f with
  | none => simp [chkPtr]
  | some g => exact h g rfl prev c

theorem chkLoop_ne [Ord K] {fs : List (Option K → ChkRes K)} (h : ∀ f ∈ fs, NoBadLen f) {ht : Nat} :
    ∀ (es : List (K × V)) (i len : Nat) (pred : K) (c : Nat),
      chkLoop fs ht i es len pred ≠ some (.error (.badLen c)) := by
  intro es
  induction es with
  | nil => intro i len pred c; simp [chkLoop]
  | cons e es ih =>
    intro i len pred c
    have := chkPtr_ne (f := fs[i]?) (fun g hg => h g (List.mem_of_getElem? hg)) (some pred) c
    rw [chkLoop]
    split
    · simp
    · next err he => rw [he] at this; simpa using this
    · split
      · simp
      · split
        · simp
        · split
          · simp
          · exact ih _ _ _ _

theorem chkBody_ne [Ord K] {N mp : Nat} {es : List (K × V)} {fs : List (Option K → ChkRes K)}
    (h : ∀ f ∈ fs, NoBadLen f) : NoBadLen (fun prev => chkBody N es fs prev mp) := by
  intro prev c
  have h0 := chkPtr_ne (f := fs[0]?) (fun g hg => h g (List.mem_of_getElem? hg)) prev c
  have hl := chkPtr_ne (f := fs.getLast?) (fun g hg => h g (List.mem_of_getLast? hg))
  dsimp only
  rw [chkBody]
  split
  · simp
  · split
    · simp
    · split
      · simp
      · split
        · simp
        · next err he => rw [he] at h0; exact h0
        · split
          · simp
          · split
            · simp
            · split
              · simp
              · next err he => have := chkLoop_ne h _ _ _ _ c |> (he ▸ ·); simpa using this
              · split
                · simp
                · next err he => have := hl _ c |> (he ▸ ·); exact this
                · split <;> simp

mutual
theorem chk_ne [Ord K] (N : Nat) (mp : Nat) : ∀ n : Node K V, NoBadLen (fun prev => n.chk N prev mp)
  | .mk es ks => by
    intro prev c
    have := chkBody_ne (N := N) (mp := mp) (es := es) (chkFns_ne N ks) prev c
    rw [Node.chk]; exact this
theorem chkFns_ne [Ord K] (N : Nat) : ∀ ks : List (Node K V), ∀ f ∈ Node.chkFns N ks, NoBadLen f
  | [] => by simp [Node.chkFns]
  | c :: ks => by
    intro f hf
    rw [Node.chkFns] at hf
    rcases List.mem_cons.1 hf with rfl | hf
    · exact chk_ne N N c
    · exact chkFns_ne N ks f hf
end

/-- Strictly above the optional key. -/
def Above [Ord K] (prev : Option K) (l : List (K × V)) : Prop :=
  ∀ p, prev = some p → ∀ e ∈ l, compare p e.1 = .lt

/-- The last key of a list, or a default. -/
def lastKey (d : Option K) (l : List (K × V)) : Option K :=
  match l.getLast? with
  | none => d
  | some e => some e.1

/-- What a successful check of a child (possibly absent) tells. -/
def KidChecked [Ord K] (N : Nat) (c : Option (Node K V)) (prev : Option K) (r : Check K) : Prop :=
  match c with
  | none => r = (0, 0, prev)
  | some c => 1 ≤ r.1 ∧ Node.Ok N N (r.1 - 1) c ∧ Sorted c.toList ∧ Above prev c.toList ∧
      r.2.1 = c.toList.length ∧ r.2.2 = lastKey none c.toList ∧ c.toList ≠ []

section
variable [Ord K] [TransOrd K]

/-- The contents of an optional child. -/
def optList (c : Option (Node K V)) : List (K × V) :=
  match c with
  | none => []
  | some c => c.toList

theorem KidChecked.last {N : Nat} {c : Option (Node K V)} {p : K} {r : Check K}
    (h : KidChecked N c (some p) r) :
    ∃ g, r.2.2 = some g ∧ ∀ k, compare g k = .lt → compare p k = .lt ∧
      ∀ e ∈ optList c, compare e.1 k = .lt := by
  cases c with
  | none =>
    have h : r = (0, 0, some p) := h
    exact ⟨p, by rw [h], fun k hk => ⟨hk, by simp [optList]⟩⟩
  | some c =>
    obtain ⟨h1, h2, h3, h4, h5, h6, h7⟩ := h
    obtain ⟨l, x, hl⟩ : ∃ l x, c.toList = l ++ [x] :=
      ⟨_, _, (List.dropLast_concat_getLast h7).symm⟩
    refine ⟨x.1, by rw [h6, hl]; simp [lastKey], fun k hk => ⟨?_, ?_⟩⟩
    · exact TransCmp.lt_trans (h4 p rfl x (by rw [hl]; simp)) hk
    · intro e he
      have he : e ∈ c.toList := he
      rw [hl] at he h3
      rcases List.mem_append.1 he with he | he
      · exact TransCmp.lt_trans ((sorted_append.1 h3).2.2 e he x (by simp)) hk
      · simp at he; subst he; exact hk

theorem KidChecked.below {N : Nat} {c : Option (Node K V)} {p : Option K} {r : Check K} {k : K}
    (h : KidChecked N c p r) (hg : r.2.2.any (fun g => compare g k != .lt) = false) :
    (∀ q, p = some q → compare q k = .lt) ∧ ∀ e ∈ optList c, compare e.1 k = .lt := by
  cases p with
  | some p =>
    obtain ⟨g, e1, e2⟩ := h.last
    rw [e1] at hg
    obtain ⟨h1, h2⟩ := e2 k (by simpa using hg)
    exact ⟨by rintro q ⟨⟩; exact h1, h2⟩
  | none =>
    refine ⟨by simp, ?_⟩
    cases c with
    | none => simp [optList]
    | some c =>
      obtain ⟨h1, h2, h3, h4, h5, h6, h7⟩ := h
      obtain ⟨l, x, hl⟩ : ∃ l x, c.toList = l ++ [x] :=
        ⟨_, _, (List.dropLast_concat_getLast h7).symm⟩
      have hx : r.2.2 = some x.1 := by rw [h6, hl]; simp [lastKey]
      have hk : compare x.1 k = .lt := by rw [hx] at hg; simpa using hg
      intro e he
      have he : e ∈ c.toList := he
      rw [hl] at he h3
      rcases List.mem_append.1 he with he | he
      · exact TransCmp.lt_trans ((sorted_append.1 h3).2.2 e he x (by simp)) hk
      · simp at he; subst he; exact hk

/-- The loop over the later elements. -/
theorem chkLoop_sound {N : Nat} {ks : List (Node K V)} {ht : Nat}
    (hk : ∀ c ∈ ks, ∀ prev, ∃ r, c.chk N prev N = some r ∧
      ∀ x, r = .ok x → KidChecked N (some c) prev x) :
    ∀ (es : List (K × V)) (i len : Nat) (pred : K),
    ∃ r, chkLoop (Node.chkFns N ks) ht i es len pred = some r ∧
      ∀ len' pred', r = .ok (len', pred') →
        let cs := (ks.drop i).take es.length
        (ht = 0 → ks.drop i = [] ∨ es = []) ∧
        (1 ≤ ht → cs.length = es.length ∧ ∀ c ∈ cs, Node.Ok N N (ht - 1) c) ∧
        Sorted (inter cs es) ∧ Above (some pred) (inter cs es) ∧
        len' + es.length = len + (inter cs es).length ∧
        pred' = (lastKey (some pred) es).getD pred := by
  intro es
  induction es with
  | nil =>
    intro i len pred
    refine ⟨_, rfl, ?_⟩
    intro len' pred' h
    simp only [Except.ok.injEq, Prod.mk.injEq] at h
    obtain ⟨rfl, rfl⟩ := h
    simp [Above, lastKey, Sorted]
  | cons e es ih =>
    intro i len pred
    have hfi : (Node.chkFns N ks)[i]? = (ks[i]?).map (fun c prev => c.chk N prev N) := by
      rw [chkFns_eq]; simp
    have hkid : ∃ r, chkPtr (Node.chkFns N ks)[i]? (some pred) = some r ∧
        ∀ x, r = .ok x → KidChecked N ks[i]? (some pred) x := by
      rw [hfi]
      cases hc : ks[i]? with
      | none =>
        exact ⟨_, rfl, fun x hx => by simp at hx; simp [KidChecked, ← hx]⟩
      | some c => exact hk c (List.mem_of_getElem? hc) _
    obtain ⟨r, hr1, hr2⟩ := hkid
    rw [chkLoop, hr1]
    cases r with
    | error err => exact ⟨_, rfl, by simp⟩
    | ok x =>
      obtain ⟨cht, clen, g⟩ := x
      have hx := hr2 _ rfl
      by_cases hne : ht = cht
      · subst hne
        obtain ⟨g', hg1, hg2⟩ := hx.last
        simp only at hg1
        subst hg1
        simp only [ne_eq, not_true_eq_false, if_false]
        by_cases hlt : compare g' e.1 = .lt
        · simp only [hlt, bne_self_eq_false, Bool.false_eq_true, if_false]
          obtain ⟨r, e1, e2⟩ := ih (i + 1) (len + clen) e.1
          refine ⟨r, e1, ?_⟩
          intro len' pred' hr
          obtain ⟨a0, a1, a2, a3, a4, a5⟩ := e2 len' pred' hr
          have hpred : pred' = (lastKey (some pred) (e :: es)).getD pred := by
            rw [a5]
            cases es with
            | nil => simp [lastKey]
            | cons y ys =>
              cases hl : (y :: ys).getLast? with
              | none => simp at hl
              | some z => simp [lastKey, hl, List.getLast?_cons_cons]
          cases hc : ks[i]? with
          | none =>
            rw [hc] at hx hg2
            simp only [KidChecked, Prod.mk.injEq] at hx
            obtain ⟨rfl, rfl, -⟩ := hx
            have hd : ks.drop i = [] := by
              rw [List.getElem?_eq_none_iff] at hc; simp; omega
            have hd2 : ks.drop (i + 1) = [] := by
              rw [List.getElem?_eq_none_iff] at hc; simp; omega
            rw [hd2] at a2 a3 a4
            simp only [List.take_nil, inter_nil] at a2 a3 a4
            rw [hd]
            simp only [List.take_nil, inter_nil]
            refine ⟨fun _ => Or.inl trivial, fun h => by omega, ?_, ?_, ?_, hpred⟩
            · exact sorted_cons.2 ⟨fun b hb => a3 e.1 rfl b hb, a2⟩
            · intro p hp x hx
              simp only [Option.some.injEq] at hp
              subst hp
              have hpe := (hg2 e.1 hlt).1
              rcases List.mem_cons.1 hx with rfl | hx
              · exact hpe
              · exact TransCmp.lt_trans hpe (a3 e.1 rfl x hx)
            · simp only [List.length_cons] at a4 ⊢; omega
          | some c =>
            rw [hc] at hx hg2
            obtain ⟨b1, b2, b3, b4, b5, b6, b7⟩ := hx
            simp only at b1 b2 b5
            have hd : ks.drop i = c :: ks.drop (i + 1) := by
              rw [List.getElem?_eq_some_iff] at hc
              obtain ⟨hi, rfl⟩ := hc
              exact List.drop_eq_getElem_cons hi
            have hce : ∀ x ∈ c.toList, compare x.1 e.1 = .lt := (hg2 e.1 hlt).2
            have hpe := (hg2 e.1 hlt).1
            rw [hd]
            simp only [List.length_cons, List.take_succ_cons, inter_cons, post_cons]
            refine ⟨fun h => by omega, fun h => ⟨?_, ?_⟩, ?_, ?_, ?_, hpred⟩
            · rw [(a1 h).1]
            · intro d hd'
              rcases List.mem_cons.1 hd' with rfl | hd'
              · exact b2
              · exact (a1 h).2 d hd'
            · refine sorted_append.2 ⟨b3, sorted_cons.2 ⟨fun b hb => a3 e.1 rfl b hb, a2⟩, ?_⟩
              intro x hx y hy
              rcases List.mem_cons.1 hy with rfl | hy
              · exact hce x hx
              · exact TransCmp.lt_trans (hce x hx) (a3 e.1 rfl y hy)
            · intro p hp x hx
              simp only [Option.some.injEq] at hp
              subst hp
              rcases List.mem_append.1 hx with hx | hx
              · exact b4 pred rfl x hx
              · rcases List.mem_cons.1 hx with rfl | hx
                · exact hpe
                · exact TransCmp.lt_trans hpe (a3 e.1 rfl x hx)
            · simp only [List.length_append, List.length_cons]; omega
        · have : (compare g' e.1 != .lt) = true := by simpa using hlt
          simp only [this, if_true]
          exact ⟨_, rfl, by simp⟩
      · simp only [ne_eq, hne, not_false_eq_true, if_true]
        exact ⟨_, rfl, by simp⟩

theorem lastKey_append_cons (d : Option K) (l1 l2 : List (K × V)) (e : K × V) :
    lastKey d (l1 ++ e :: l2) = lastKey (some e.1) l2 := by
  cases l2 with
  | nil => simp [lastKey]
  | cons y ys =>
    have : (l1 ++ e :: y :: ys).getLast? = (y :: ys).getLast? := by
      rw [List.getLast?_append]; simp [List.getLast?_cons]
    rw [lastKey, this]
    cases hl : (y :: ys).getLast? with
    | none => simp at hl
    | some z => simp [lastKey, hl]

/-- No node has more children than fit between and around its elements. -/
inductive NoExtra : Node K V → Prop where
  | mk {es : List (K × V)} {ks : List (Node K V)} (h : ks.length ≤ es.length + 1)
      (hk : ∀ c ∈ ks, NoExtra c) : NoExtra (.mk es ks)

theorem IterOk.noExtra {b : Bool} : ∀ {h : Nat} {n : Node K V}, IterOk b h n → NoExtra n := by
  intro h
  induction h with
  | zero => intro n hn; exact hn.elim
  | succ h ih =>
    intro n hn
    obtain ⟨es, ks⟩ := n
    obtain ⟨-, hks, hkids⟩ := hn
    refine ⟨?_, fun c hc => ih (hkids c hc)⟩
    rcases hks with rfl | h | h
    · simp
    · omega
    · omega

/-- On trees without excess children `chk` does not panic and accepts only valid trees. -/
theorem chk_sound' {N : Nat} (hN : 1 ≤ N) : ∀ {n : Node K V}, NoExtra n →
    ∀ (prev : Option K) (mp : Nat), (mp = 1 ∨ mp = N) →
    ∃ r, n.chk N prev mp = some r ∧ ∀ ht len g, r = .ok (ht, len, g) →
      1 ≤ ht ∧ Node.Ok N mp (ht - 1) n ∧ Sorted n.toList ∧ Above prev n.toList ∧
      len = n.toList.length ∧ g = lastKey none n.toList ∧ n.toList ≠ [] := by
  intro n hn
  induction hn with
  | @mk es ks hks hkids ih =>
    intro prev mp hmp
    by_cases hne : es = []
    · subst hne
      rw [Node.chk, chkBody, if_neg (not_not_intro hmp), if_pos (by simp; omega)]
      exact ⟨_, rfl, by simp⟩
    have hk : ∀ c ∈ ks, ∀ prev, ∃ r, c.chk N prev N = some r ∧
        ∀ x, r = .ok x → KidChecked N (some c) prev x := by
      intro c hc prev
      obtain ⟨r, e1, e2⟩ := ih c hc prev N (Or.inr rfl)
      exact ⟨r, e1, fun x hx => e2 x.1 x.2.1 x.2.2 hx⟩
    have hptr : ∀ (c : Option (Node K V)) (prev : Option K), (∀ d, c = some d → d ∈ ks) →
        ∃ r, chkPtr (c.map (fun c prev => c.chk N prev N)) prev = some r ∧
          ∀ x, r = .ok x → KidChecked N c prev x := by
      intro c prev hc
      cases c with
      | none => exact ⟨_, rfl, fun x hx => by simp at hx; simp [KidChecked, ← hx]⟩
      | some c => exact hk c (hc c rfl) prev
    obtain ⟨e, es', rfl⟩ := List.exists_cons_of_ne_nil hne
    rw [Node.chk, chkBody, if_neg (not_not_intro hmp)]
    by_cases h1 : (e :: es').length < mp
    · rw [if_pos h1]; exact ⟨_, rfl, by simp⟩
    rw [if_neg h1]
    by_cases h2 : (e :: es').length > 2 * N + 1
    · rw [if_pos h2]; exact ⟨_, rfl, by simp⟩
    rw [if_neg h2]
    have hf0 : (Node.chkFns N ks)[0]? = (ks[0]?).map (fun c prev => c.chk N prev N) := by
      rw [chkFns_eq]; simp
    have hfl : (Node.chkFns N ks).getLast? = (ks.getLast?).map (fun c prev => c.chk N prev N) := by
      rw [chkFns_eq]; simp
    obtain ⟨r, hr1, hr2⟩ := hptr ks[0]? prev (fun d hd => List.mem_of_getElem? hd)
    rw [← hf0] at hr1
    rw [hr1]
    cases r with
    | error err => exact ⟨_, rfl, by simp⟩
    | ok x =>
    obtain ⟨ht, len, g⟩ := x
    have hx := hr2 _ rfl
    simp only
    by_cases hg : g.any (fun g => compare g e.1 != .lt) = true
    · rw [if_pos hg]; exact ⟨_, rfl, by simp⟩
    rw [if_neg hg]
    obtain ⟨hp0, hc0⟩ := hx.below (k := e.1) (by simpa using hg)
    obtain ⟨r, e1, e2⟩ := chkLoop_sound (ht := ht) hk es' 1 len e.1
    rw [e1]
    cases r with
    | error err => exact ⟨_, rfl, by simp⟩
    | ok y =>
    obtain ⟨len', pred'⟩ := y
    obtain ⟨-, a1, a2, a3, a4, a5⟩ := e2 _ _ rfl
    simp only
    obtain ⟨r, hl1, hl2⟩ := hptr ks.getLast? (some pred') (fun d hd => List.mem_of_getLast? hd)
    rw [← hfl] at hl1
    rw [hl1]
    cases r with
    | error err => exact ⟨_, rfl, by simp⟩
    | ok z =>
    obtain ⟨cht, clen, gl⟩ := z
    have hz := hl2 _ rfl
    simp only
    by_cases hht : ht = cht
    · subst hht
      simp only [ne_eq, not_true_eq_false, if_false]
      refine ⟨_, rfl, ?_⟩
      intro ht2 len2 g2 heq
      simp only [Except.ok.injEq, Prod.mk.injEq] at heq
      obtain ⟨rfl, rfl, rfl⟩ := heq
      have hpred : some pred' = lastKey (some e.1) es' := by
        rw [a5]
        cases es' with
        | nil => simp [lastKey]
        | cons y ys =>
          cases hl : (y :: ys).getLast? with
          | none => simp at hl
          | some z => simp [lastKey, hl]
      cases ks with
      | nil =>
        simp only [List.getElem?_nil, KidChecked, Prod.mk.injEq] at hx
        simp only [List.getLast?_nil, KidChecked, Prod.mk.injEq] at hz
        obtain ⟨rfl, rfl, -⟩ := hx
        obtain ⟨-, rfl, rfl⟩ := hz
        simp only [List.drop_nil, List.take_nil, inter_nil] at a2 a3 a4
        refine ⟨by omega, ⟨rfl, by omega, by omega⟩, ?_, ?_, ?_, ?_, by simp⟩
        · simpa using sorted_cons.2 ⟨fun b hb => a3 e.1 rfl b hb, a2⟩
        · intro p hp b hb
          simp only [toList_mk, inter_nil] at hb
          rcases List.mem_cons.1 hb with rfl | hb
          · exact hp0 p hp
          · exact TransCmp.lt_trans (hp0 p hp) (a3 e.1 rfl b hb)
        · simp; omega
        · rw [hpred]; simpa using (lastKey_append_cons none [] es' e).symm
      | cons c0 ks =>
        simp only [List.getElem?_cons_zero, KidChecked] at hx
        obtain ⟨b1, b2, b3, b4, b5, b6, b7⟩ := hx
        have hc0' : ∀ x ∈ c0.toList, compare x.1 e.1 = .lt := hc0
        simp only [List.drop_succ_cons, List.drop_zero] at a1 a2 a3 a4
        obtain ⟨m1, m2⟩ := a1 b1
        have hsplit := List.take_append_drop es'.length ks
        generalize hmid : ks.take es'.length = mid at *
        simp only [List.length_cons] at hks
        have hdl : (ks.drop es'.length).length ≤ 1 := by
          simp only [List.length_drop]
          omega
        match hd : ks.drop es'.length, hdl with
        | [], _ =>
          exfalso
          rw [hd, List.append_nil] at hsplit
          subst hsplit
          rcases List.eq_nil_or_concat es' with rfl | ⟨es2, el, rfl⟩
          · have : mid = [] := by simpa using m1
            subst this
            obtain ⟨-, -, -, z4, -, -, z7⟩ := hz
            obtain ⟨x, xs, hx⟩ := List.exists_cons_of_ne_nil b7
            have h1 := hc0' x (by simp [hx])
            have h2 := z4 pred' rfl x (by simp [hx])
            simp [lastKey] at hpred
            subst hpred
            have := TransCmp.lt_trans h1 h2
            simp [ReflCmp.compare_self] at this
          · rcases List.eq_nil_or_concat mid with rfl | ⟨m', cl, rfl⟩
            · simp at m1
            simp only [List.concat_eq_append] at *
            rw [← List.cons_append, List.getLast?_concat] at hz
            obtain ⟨-, -, -, z4, -, -, z7⟩ := hz
            have hpe : pred' = el.1 := by simpa [lastKey] using hpred
            have hlen : m'.length = es2.length := by simpa using m1
            rw [inter_append hlen] at a2
            simp only [inter_cons, post_cons, inter_nil] at a2
            obtain ⟨-, s2, -⟩ := sorted_append.1 a2
            obtain ⟨x, xs, hx⟩ := List.exists_cons_of_ne_nil z7
            have h1 := (sorted_append.1 s2).2.2 x (by simp [hx]) el (by simp)
            have h2 := z4 pred' rfl x (by simp [hx])
            rw [hpe] at h2
            have := TransCmp.lt_trans h1 h2
            simp [ReflCmp.compare_self] at this
        | [cl], _ =>
          rw [hd] at hsplit
          subst hsplit
          rw [← List.cons_append, List.getLast?_concat] at hz
          obtain ⟨z1, z2, z3, z4, z5, z6, z7⟩ := hz
          simp only at z5 z6
          have htl : toList (mk (e :: es') (c0 :: (mid ++ [cl]))) =
              c0.toList ++ e :: (inter mid es' ++ cl.toList) := by
            rw [toList_mk, inter_cons, post_cons]
            have := inter_append (ks2 := [cl]) (es2 := []) m1
            rw [List.append_nil] at this
            rw [this]; simp [inter_cons]
          have hep : ∀ k, compare pred' k = .lt → compare e.1 k = .lt ∧
              ∀ x ∈ inter mid es', compare x.1 k = .lt := by
            intro k hlt
            rcases List.eq_nil_or_concat es' with rfl | ⟨es2, el, rfl⟩
            · have : mid = [] := by simpa using m1
              subst this
              simp [lastKey] at hpred
              subst hpred
              exact ⟨hlt, by simp⟩
            · rcases List.eq_nil_or_concat mid with rfl | ⟨m', cl', rfl⟩
              · simp at m1
              simp only [List.concat_eq_append] at *
              have hpe : pred' = el.1 := by simpa [lastKey] using hpred
              rw [hpe] at hlt
              have hlen : m'.length = es2.length := by simpa using m1
              rw [inter_append hlen] at a2 a3 ⊢
              simp only [inter_cons, post_cons, inter_nil] at a2 a3 ⊢
              rw [← List.append_assoc] at a2 a3 ⊢
              refine ⟨TransCmp.lt_trans (a3 e.1 rfl el (by simp)) hlt, ?_⟩
              intro x hx
              rcases List.mem_append.1 hx with hx | hx
              · exact TransCmp.lt_trans ((sorted_append.1 a2).2.2 x hx el (by simp)) hlt
              · simp at hx; subst hx; exact hlt
          have habove : ∀ x ∈ inter mid es' ++ cl.toList, compare e.1 x.1 = .lt := by
            intro x hx
            rcases List.mem_append.1 hx with hx | hx
            · exact a3 e.1 rfl x hx
            · exact (hep _ (z4 pred' rfl x hx)).1
          refine ⟨by omega, ?_, ?_, ?_, ?_, ?_, ?_⟩
          · obtain ⟨h', rfl⟩ : ∃ h', ht = h' + 1 := ⟨ht - 1, by omega⟩
            refine ⟨?_, by omega, by omega, ?_⟩
            · simp [m1]
            · intro c hc
              rcases List.mem_cons.1 hc with rfl | hc
              · exact b2
              · rcases List.mem_append.1 hc with hc | hc
                · exact m2 c hc
                · simp at hc; subst hc; exact z2
          · rw [htl]
            refine sorted_append.2 ⟨b3, sorted_cons.2 ⟨fun b hb => habove b hb,
              sorted_append.2 ⟨a2, z3, ?_⟩⟩, ?_⟩
            · intro x hx y hy
              exact (hep _ (z4 pred' rfl y hy)).2 x hx
            · intro x hx y hy
              rcases List.mem_cons.1 hy with rfl | hy
              · exact hc0' x hx
              · exact TransCmp.lt_trans (hc0' x hx) (habove y hy)
          · rw [htl]
            intro p hp b hb
            rcases List.mem_append.1 hb with hb | hb
            · exact b4 p hp b hb
            · rcases List.mem_cons.1 hb with rfl | hb
              · exact hp0 p hp
              · exact TransCmp.lt_trans (hp0 p hp) (habove b hb)
          · rw [htl]
            simp only [List.length_append, List.length_cons]
            omega
          · rw [z6, htl]
            rcases List.eq_nil_or_concat cl.toList with h | ⟨l', x, h⟩
            · exact absurd h z7
            · have : c0.toList ++ e :: (inter mid es' ++ (l' ++ [x])) =
                  (c0.toList ++ e :: (inter mid es' ++ l')) ++ [x] := by simp
              rw [h, List.concat_eq_append, this, lastKey, lastKey, List.getLast?_concat,
                List.getLast?_concat]
          · rw [htl]; simp
    · simp only [ne_eq, hht, not_false_eq_true, if_true]
      exact ⟨_, rfl, by simp⟩

/-- On trees that iteration copes with, `chk` does not panic and accepts only valid trees. -/
theorem chk_sound {N : Nat} (hN : 1 ≤ N) {h : Nat} {n : Node K V} (hn : IterOk false h n)
    (prev : Option K) (mp : Nat) (hmp : mp = 1 ∨ mp = N) :
    ∃ r, n.chk N prev mp = some r ∧ ∀ ht len g, r = .ok (ht, len, g) →
      1 ≤ ht ∧ Node.Ok N mp (ht - 1) n ∧ Sorted n.toList ∧ Above prev n.toList ∧
      len = n.toList.length ∧ g = lastKey none n.toList ∧ n.toList ≠ [] :=
  chk_sound' hN hn.noExtra prev mp hmp

/-- What `chk` can say about a child of a well-shaped node. -/
def KidFull (N ht : Nat) (c : Option (Node K V)) : Prop :=
  match c with
  | none => ht = 0
  | some c => ∀ prev, (∃ g, c.chk N prev N = some (.ok (ht, c.toList.length, some g))) ∨
      c.chk N prev N = some (.error .unsorted)

theorem KidFull.ptr {N ht : Nat} {c : Option (Node K V)} (h : KidFull N ht c) (pred : K) :
    (∃ g, chkPtr (c.map (fun c prev => c.chk N prev N)) (some pred) =
      some (.ok (ht, (optList c).length, some g))) ∨
    chkPtr (c.map (fun c prev => c.chk N prev N)) (some pred) = some (.error .unsorted) := by
  cases c with
  | none => left; exact ⟨pred, by have h : ht = 0 := h; subst h; rfl⟩
  | some c => exact h (some pred)

theorem chkLoop_full {N ht : Nat} {ks : List (Node K V)} :
    ∀ (es : List (K × V)) (i len : Nat) (pred : K),
    (∀ j, j < es.length → KidFull N ht ks[i + j]?) →
    (∃ p', chkLoop (Node.chkFns N ks) ht i es len pred =
      some (.ok (len + (inter ((ks.drop i).take es.length) es).length - es.length, p'))) ∨
    chkLoop (Node.chkFns N ks) ht i es len pred = some (.error .unsorted) := by
  intro es
  induction es with
  | nil => intro i len pred _; left; exact ⟨pred, by simp [chkLoop]⟩
  | cons e es ih =>
    intro i len pred hk
    have hfi : (Node.chkFns N ks)[i]? = (ks[i]?).map (fun c prev => c.chk N prev N) := by
      rw [chkFns_eq]; simp
    rw [chkLoop, hfi]
    rcases (hk 0 (by simp)).ptr pred with ⟨g, hg⟩ | hg
    · rw [Nat.add_zero] at hg
      rw [hg]
      simp only [ne_eq, not_true_eq_false, if_false]
      by_cases hlt : (compare g e.1 != .lt) = true
      · rw [if_pos hlt]; right; rfl
      · rw [if_neg hlt]
        rcases ih (i + 1) (len + (optList ks[i]?).length) e.1 (fun j hj => by
          have := hk (j + 1) (by simpa using hj)
          rwa [← Nat.add_assoc, Nat.add_right_comm] at this) with ⟨p', h⟩ | h
        · left
          refine ⟨p', ?_⟩
          rw [h]
          congr 3
          cases hc : ks[i]? with
          | none =>
            rw [List.getElem?_eq_none_iff] at hc
            have h1 : ks.drop i = [] := by simp; omega
            have h2 : ks.drop (i + 1) = [] := by simp; omega
            simp [h1, h2, optList]
          | some c =>
            rw [List.getElem?_eq_some_iff] at hc
            obtain ⟨hi, rfl⟩ := hc
            rw [List.drop_eq_getElem_cons hi]
            simp only [List.length_cons, List.take_succ_cons, inter_cons, post_cons, optList,
              List.length_append]
            omega
        · right; exact h
    · rw [Nat.add_zero] at hg
      rw [hg]; right; rfl

/-- A well-shaped node can only be criticised for its order. -/
theorem chk_full {N : Nat} (hN : 1 ≤ N) : ∀ {h lo : Nat} {n : Node K V}, Node.Ok N lo h n →
    (lo = 1 ∨ lo = N) → ∀ prev,
    (∃ g, n.chk N prev lo = some (.ok (h + 1, n.toList.length, some g))) ∨
    n.chk N prev lo = some (.error .unsorted) := by
  intro h
  induction h with
  | zero =>
    intro lo n hn hlo prev
    obtain ⟨es, ks⟩ := n
    obtain ⟨rfl, h1, h2⟩ := hn
    have hlo' : 1 ≤ lo := by omega
    obtain ⟨e, es', rfl⟩ : ∃ e es', es = e :: es' := by
      cases es with
      | nil => simp at h1; omega
      | cons e es' => exact ⟨e, es', rfl⟩
    rw [Node.chk, chkBody, if_neg (not_not_intro hlo), if_neg (by omega), if_neg (by omega)]
    simp only [Node.chkFns, List.getElem?_nil, chkPtr]
    by_cases hg : prev.any (fun g => compare g e.1 != .lt) = true
    · rw [if_pos hg]; right; rfl
    rw [if_neg hg]
    rcases chkLoop_full (N := N) (ht := 0) (ks := ([] : List (Node K V))) es' 1 0 e.1
      (fun j _ => by simp [KidFull]) with ⟨p', hh⟩ | hh
    · simp only [Node.chkFns] at hh
      rw [hh]
      left
      refine ⟨p', ?_⟩
      simp
    · simp only [Node.chkFns] at hh
      rw [hh]; right; rfl
  | succ h ih =>
    intro lo n hn hlo prev
    obtain ⟨es, ks⟩ := n
    obtain ⟨hlen, h1, h2, hkids⟩ := hn
    obtain ⟨e, es', rfl⟩ : ∃ e es', es = e :: es' := by
      cases es with
      | nil => simp at h1; omega
      | cons e es' => exact ⟨e, es', rfl⟩
    have hfull : ∀ c ∈ ks, KidFull N (h + 1) (some c) := fun c hc prev =>
      ih (hkids c hc) (Or.inr rfl) prev
    simp only [List.length_cons] at hlen
    cases ks with
    | nil => simp at hlen
    | cons c0 ks =>
    rcases List.eq_nil_or_concat ks with rfl | ⟨mid, cl, rfl⟩
    · simp at hlen
    simp only [List.concat_eq_append] at *
    have hmid : mid.length = es'.length := by simp at hlen; omega
    have hf0 : (Node.chkFns N (c0 :: (mid ++ [cl])))[0]? = some (fun prev => c0.chk N prev N) := by
      rw [chkFns_eq]; simp
    have hfl : (Node.chkFns N (c0 :: (mid ++ [cl]))).getLast? = some (fun prev => cl.chk N prev N) := by
      rw [chkFns_eq, List.getLast?_map, ← List.cons_append, List.getLast?_concat]; simp
    rw [Node.chk, chkBody, if_neg (not_not_intro hlo), if_neg (by omega), if_neg (by omega), hf0,
      hfl]
    simp only [chkPtr]
    rcases hfull c0 (by simp) prev with ⟨g, hg⟩ | hg
    · rw [hg]
      simp only
      by_cases hgt : (some g).any (fun g => compare g e.1 != .lt) = true
      · rw [if_pos hgt]; right; rfl
      rw [if_neg hgt]
      rcases chkLoop_full (N := N) (ht := h + 1) (ks := c0 :: (mid ++ [cl])) es' 1 c0.toList.length
        e.1 (fun j hj => by
          have : (c0 :: (mid ++ [cl]))[1 + j]? = some mid[j] := by
            rw [Nat.add_comm, List.getElem?_cons_succ, List.getElem?_append_left (by omega)]
            simp
          rw [this]
          exact hfull _ (by simp)) with ⟨p', hh⟩ | hh
      · rw [hh]
        simp only
        rcases hfull cl (by simp) (some p') with ⟨g, hg⟩ | hg
        · rw [hg]
          simp only [ne_eq, not_true_eq_false, if_false]
          left
          refine ⟨g, ?_⟩
          congr 4
          have htl : toList (mk (e :: es') (c0 :: (mid ++ [cl]))) =
              c0.toList ++ e :: (inter mid es' ++ cl.toList) := by
            rw [toList_mk, inter_cons, post_cons]
            have := inter_append (ks2 := [cl]) (es2 := []) hmid
            rw [List.append_nil] at this
            rw [this]; simp [inter_cons]
          have hle : es'.length ≤ (inter mid es').length := by
            exact (elems_sublist mid es').length_le
          have ht : (mid ++ [cl]).take es'.length = mid := by
            rw [← hmid]; simp
          rw [htl]
          simp only [List.drop_succ_cons, List.drop_zero, ht, List.length_append, List.length_cons]
          omega
        · rw [hg]; right; rfl
      · rw [hh]; right; rfl
    · rw [hg]; right; rfl

end
end Verif.BTree
