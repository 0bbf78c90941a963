import Verif.Wild.RangeSpec
import Verif.Wild.Count
/-!
# How many comparisons `range` of a `BTreeMap` makes
-/
set_option linter.unusedVariables false
namespace Verif.BTree
open Verif.Wild Node
universe w
variable {σ : Type w} {K V : Type} {N : Nat} {μ : σ → Nat}

/-- A comparison with the bound raises `μ` by at most one. -/
def WBnd.Ticks : WBnd σ K → (σ → Nat) → Prop
  | .unbounded, _ => True
  | .included c, μ => Wild.Ticks c μ
  | .excluded c, μ => Wild.Ticks c μ

/-- The same bound, its comparisons counted. -/
def WBnd.counted : WBnd σ K → WBnd (σ × Nat) K
  | .unbounded => .unbounded
  | .included c => .included (Wild.counted c)
  | .excluded c => .excluded (Wild.counted c)

theorem WBnd.counted_ticks (b : WBnd σ K) : b.counted.Ticks (·.2) := by
  cases b with
  | unbounded => trivial
  | included c => exact Wild.counted_ticks c
  | excluded c => exact Wild.counted_ticks c

theorem cmpBdW_count {b : WBnd σ K} (hb : b.Ticks μ) {k : K} {s s' : σ} {o}
    (e : cmpBdW b k s = (o, s')) : μ s' ≤ μ s + b.given.toNat := by
  cases b with
  | unbounded => cases e; simp [WBnd.given]
  | included c =>
    have := hb k s
    rw [cmpBdW] at e
    rcases hc : c k s with ⟨_ | _ | _ | _, s2⟩ <;> rw [hc] at e this <;> cases e <;>
      simpa [WBnd.given] using this
  | excluded c =>
    have := hb k s
    rw [cmpBdW] at e
    rcases hc : c k s with ⟨_ | _ | _ | _, s2⟩ <;> rw [hc] at e this <;> cases e <;>
      simpa [WBnd.given] using this

/-- The left edge: every key looked at but the last is done with. -/
theorem findLW_count {b : WBnd σ K} (hb : b.Ticks μ) : ∀ (es : List (K × V)) (i : Nat) (s s' : σ) o,
    findLW b i es s = (o, s') →
    match o with
    | none => μ s' ≤ μ s + es.length * b.given.toNat
    | some r => μ s' + r.2.2.length * b.given.toNat ≤ μ s + es.length * b.given.toNat + b.given.toNat ∧
        r.2.2.length ≤ es.length ∧ μ s' ≤ μ s + es.length * b.given.toNat
  | [], i, s, s', o, e => by cases e; simp
  | x :: es, i, s, s', o, e => by
    rw [findLW] at e
    have hm : (es.length + 1) * b.given.toNat = es.length * b.given.toNat + b.given.toNat := by
      rw [Nat.add_mul, Nat.one_mul]
    rcases hc : cmpBdW b x.1 s with ⟨_ | _ | _ | isIn | _, s2⟩ <;> have h1 := cmpBdW_count hb hc <;>
      rw [hc] at e <;> simp only at e
    case some.greater =>
      have := findLW_count hb es (i + 1) s2 s' o e
      rcases o with _ | r <;> simp only [List.length_cons, hm] at this ⊢ <;> omega
    all_goals
      cases e
      simp only [List.length_cons, hm]
      omega

theorem findRW_count {b : WBnd σ K} (hb : b.Ticks μ) (len : Nat) : ∀ (es : List (K × V)) (i : Nat)
    (s s' : σ) o, findRW len b i es s = (o, s') → μ s' ≤ μ s + es.length * b.given.toNat
  | [], i, s, s', o, e => by cases e; simp
  | x :: es, i, s, s', o, e => by
    rw [findRW] at e
    have hm : (es.length + 1) * b.given.toNat = es.length * b.given.toNat + b.given.toNat := by
      rw [Nat.add_mul, Nat.one_mul]
    rw [List.length_cons, hm]
    rcases hc : cmpBdW b x.1 s with ⟨_ | _ | _ | isIn | _, s2⟩ <;> have h1 := cmpBdW_count hb hc <;>
      rw [hc] at e <;> simp only at e
    case some.greater =>
      have := findRW_count hb len es (i + 1) s2 s' o e
      omega
    all_goals
      cases e
      omega

/-- `b2` if both bounds are given, `b1` if one is. -/
def cap (lb ub : WBnd σ K) (b1 b2 : Nat) : Nat :=
  if lb.given && ub.given then b2 else if lb.given || ub.given then b1 else 0

theorem edgesW_count {lb ub : WBnd σ K} (hl : lb.Ticks μ) (hu : ub.Ticks μ) {es : List (K × V)}
    {s s' : σ} {o} (e : edgesW lb ub es s = (o, s')) :
    μ s' ≤ μ s + cap lb ub es.length (es.length + 1) := by
  rw [edgesW] at e
  unfold cap
  rcases h1 : findLW lb 0 es s with ⟨_ | l, s1⟩ <;> have c1 := findLW_count hl _ _ _ _ _ h1 <;>
    rw [h1] at e <;> simp only at e c1
  · cases e
    cases hgl : lb.given <;> cases hgu : ub.given <;> simp [hgl] at c1 ⊢ <;> omega
  · rcases h2 : findRW es.length ub l.2.1 l.2.2 s1 with ⟨_ | r, s2⟩ <;>
      have c2 := findRW_count hu _ _ _ _ _ _ h2 <;> rw [h2] at e <;> cases e <;>
      cases hgl : lb.given <;> cases hgu : ub.given <;> simp [hgl, hgu] at c1 c2 ⊢ <;> omega

theorem given_unb : (WBnd.unbounded : WBnd σ K).given = false := rfl

/-- One node. -/
theorem mkWorkW_step {lb ub : WBnd σ K} (hl : lb.Ticks μ) (hu : ub.Ticks μ) {es : List (K × V)}
    {ks : List (Node K V)} {M b1 b2 : Nat} (hM : es.length ≤ M) (hb : 2 * b1 ≤ b2 + M)
    (hk : ∀ c ∈ ks, ∀ (lb ub : WBnd σ K), lb.Ticks μ → ub.Ticks μ → ∀ s,
      Upto μ (cap lb ub b1 b2) s (mkWorkW lb ub c s)) (s : σ) :
    Upto μ (cap lb ub (M + b1) (2 * M + 1 + b2)) s (mkWorkW lb ub (.mk es ks) s) := by
  have hat : ∀ (lb ub : WBnd σ K), lb.Ticks μ → ub.Ticks μ → ∀ i s,
      Upto μ (cap lb ub b1 b2) s (mkWorkAtW lb ub i ks s) := by
    intro lb ub hl hu i s
    rw [mkWorkAtW_eq]
    cases hi : ks[i]? with
    | none => exact .some (by omega)
    | some c => exact hk c (List.mem_of_getElem? hi) lb ub hl hu s
  have hun : (WBnd.unbounded : WBnd σ K).Ticks μ := trivial
  rw [mkWorkW]
  rcases hed : edgesW lb ub es s with ⟨_ | ed, s1⟩ <;> have ce := edgesW_count hl hu hed <;> simp only
  · refine .some ?_
    unfold cap at ce ⊢
    cases hgl : lb.given <;> cases hgu : ub.given <;> simp [hgl, hgu] at ce ⊢ <;> omega
  by_cases hin : ed.lbE ≤ ed.ubE ∧ ed.ubE ≤ es.length
  case neg => rw [if_neg hin]; exact .none
  rw [if_pos hin]
  generalize getSlice ks ed.lbK ed.ubK = kids
  generalize (es.take ed.ubE).drop ed.lbE = elems
  -- the left child
  have h1 : Upto μ (if ed.lp = true then (if (kids.length == 1 && ed.rp) = true then cap lb ub b1 b2
        else cap lb .unbounded b1 b2) else 0) s1 (if (ed.lp && !kids.isEmpty) = true then
              if (kids.length == 1 && ed.rp) = true then
                if elems.isEmpty = true then mkWorkAtW lb ub ed.lbK ks s1 else none
              else mkWorkAtW lb .unbounded ed.lbK ks s1
            else some (.done [], s1)) := by
    by_cases c1 : (ed.lp && !kids.isEmpty) = true
    · have c0 : ed.lp = true := by simp at c1; exact c1.1
      simp only [if_pos c1, if_pos c0]
      by_cases c2 : (kids.length == 1 && ed.rp) = true
      · simp only [if_pos c2]
        split
        · exact hat _ _ hl hu _ _
        · exact .none
      · simp only [if_neg c2]
        exact hat _ _ hl hun _ _
    · simp only [if_neg c1]
      exact .some (by omega)
  rcases hm1 : (if (ed.lp && !kids.isEmpty) = true then
              if (kids.length == 1 && ed.rp) = true then
                if elems.isEmpty = true then mkWorkAtW lb ub ed.lbK ks s1 else none
              else mkWorkAtW lb .unbounded ed.lbK ks s1
            else some (.done [], s1)) with _ | ⟨u | w1, s2⟩ <;> simp only [hm1]
  · exact .none
  · have := h1 _ _ hm1
    refine .some ?_
    unfold cap at ce this ⊢
    cases hgl : lb.given <;> cases hgu : ub.given <;> simp [hgl, hgu, given_unb] at ce this ⊢ <;>
      (repeat' split at this) <;> omega
  · have t1 := h1 _ _ hm1
    have hlb2 : WBnd.Ticks (if ed.lp = true then .unbounded else lb) μ := by
      split
      · exact hun
      · exact hl
    have h2 : Upto μ (if ed.lp = true then (if (kids.length == 1 && ed.rp) = true then 0
        else cap .unbounded ub b1 b2) else cap lb ub b1 b2) s2
        (if (ed.rp && !(if ed.lp = true then kids.tail else kids).isEmpty) = true then
              mkWorkAtW (if ed.lp = true then .unbounded else lb) ub (ed.ubK - 1) ks s2
            else some (.done [], s2)) := by
      by_cases c1 : (ed.rp && !(if ed.lp = true then kids.tail else kids).isEmpty) = true
      · rw [if_pos c1]
        by_cases c0 : ed.lp = true
        · simp only [if_pos c0] at c1 ⊢
          by_cases c2 : (kids.length == 1 && ed.rp) = true
          · exfalso
            simp only [Bool.and_eq_true, beq_iff_eq] at c1 c2
            obtain ⟨x, rfl⟩ := List.length_eq_one_iff.1 c2.1
            simp at c1
          · rw [if_neg c2]; exact hat _ _ hun hu _ _
        · simp only [if_neg c0] at c1 ⊢
          exact hat _ _ hl hu _ _
      · rw [if_neg c1]; exact .some (by omega)
    have fin : ∀ r s', (if (ed.rp && !(if ed.lp = true then kids.tail else kids).isEmpty) = true then
              mkWorkAtW (if ed.lp = true then .unbounded else lb) ub (ed.ubK - 1) ks s2
            else some (.done [], s2)) = some (r, s') →
        μ s' ≤ μ s + cap lb ub (M + b1) (2 * M + 1 + b2) := by
      intro r s' e
      have t2 := h2 _ _ e
      unfold cap at ce t1 t2 ⊢
      cases hlp : ed.lp <;> cases hgl : lb.given <;> cases hgu : ub.given <;>
        simp [hgl, hgu, hlp, given_unb] at ce t1 t2 ⊢ <;>
        by_cases c2 : kids.length = 1 ∧ ed.rp = true <;> (try simp [c2] at t1 t2) <;> omega
    rcases hm2 : (if (ed.rp && !(if ed.lp = true then kids.tail else kids).isEmpty) = true then
              mkWorkAtW (if ed.lp = true then .unbounded else lb) ub (ed.ubK - 1) ks s2
            else some (.done [], s2)) with _ | ⟨u | w2, s3⟩ <;> simp only [hm2]
    · exact .none
    · exact .some (fin _ _ hm2)
    · exact .some (fin _ _ hm2)

theorem mkWorkW_count : ∀ (h lo : Nat) (n : Node K V), Node.Ok N lo h n → ∀ (lb ub : WBnd σ K),
    lb.Ticks μ → ub.Ticks μ → ∀ s,
    Upto μ (cap lb ub ((2 * N + 1) * (h + 1)) ((4 * N + 3) * (h + 1))) s (mkWorkW lb ub n s) := by
  intro h
  induction h with
  | zero =>
    rintro lo ⟨es, ks⟩ ⟨rfl, -, hh⟩ lb ub hl hu s
    have := mkWorkW_step (b1 := 0) (b2 := 0) (ks := ([] : List (Node K V))) hl hu hh (by omega)
      (by simp) s
    simpa [show 2 * (2 * N + 1) + 1 = 4 * N + 3 by omega] using this
  | succ h ih =>
    rintro lo ⟨es, ks⟩ ⟨-, -, hh, hk⟩ lb ub hl hu s
    have h4 : (4 * N + 3) * (h + 1) = 2 * ((2 * N + 1) * (h + 1)) + (h + 1) := by
      rw [show 4 * N + 3 = 2 * (2 * N + 1) + 1 by omega, Nat.add_mul, Nat.mul_assoc, Nat.one_mul]
    have := mkWorkW_step hl hu hh (b1 := (2 * N + 1) * (h + 1)) (b2 := (4 * N + 3) * (h + 1))
      (by omega) (fun c hc lb ub hl hu s => ih N c (hk c hc) lb ub hl hu s) s
    rw [Nat.mul_succ (2 * N + 1), Nat.mul_succ (4 * N + 3)]
    refine this.mono ?_
    unfold cap
    split <;> (try split) <;> omega

theorem BTreeMap.rangeW_count {lt : σ → Option Bool × σ} (hlt : ∀ s, μ (lt s).2 ≤ μ s + 1)
    {lb ub : WBnd σ K} (hl : lb.Ticks μ) (hu : ub.Ticks μ) {m : BTreeMap K V} {h : Nat}
    (hm : Low N m h) (s : σ) :
    Upto μ (cap lb ub ((2 * N + 1) * (h + 1)) ((4 * N + 3) * (h + 1) + 1)) s (m.rangeW lt lb ub s) := by
  rw [rangeW]
  have ho : ∀ o s', (if (lb.given && ub.given) = true then lt s else (some false, s)) = (o, s') →
      μ s' ≤ μ s + cap lb ub 0 1 := by
    intro o s' e
    unfold cap
    split at e
    · rename_i hg
      have := hlt s
      rw [e] at this
      simpa [hg] using this
    · cases e; omega
  rcases h0 : (if (lb.given && ub.given) = true then lt s else (some false, s)) with ⟨_ | _ | _, s1⟩ <;>
    have t0 := ho _ _ h0 <;> simp only
  · refine .some ?_
    unfold cap at t0 ⊢
    split <;> simp_all <;> omega
  · rcases e : m.root with _ | n <;> simp only
    · refine .some ?_
      unfold cap at t0 ⊢
      split <;> simp_all <;> omega
    · obtain ⟨h', hh, hn⟩ := hm n e
      have t := mkWorkW_count h' 1 n hn lb ub hl hu s1
      have a1 : (2 * N + 1) * (h' + 1) ≤ (2 * N + 1) * (h + 1) := Nat.mul_le_mul_left _ (by omega)
      have a2 : (4 * N + 3) * (h' + 1) ≤ (4 * N + 3) * (h + 1) := Nat.mul_le_mul_left _ (by omega)
      have fin : ∀ r s', mkWorkW lb ub n s1 = some (r, s') → μ s' ≤ μ s +
          cap lb ub ((2 * N + 1) * (h + 1)) ((4 * N + 3) * (h + 1) + 1) := by
        intro r s' e
        have := t _ _ e
        unfold cap at t0 this ⊢
        cases hgl : lb.given <;> cases hgu : ub.given <;> simp [hgl, hgu] at t0 this ⊢ <;> omega
      rcases hw : mkWorkW lb ub n s1 with _ | ⟨u | w, s2⟩
      · exact .none
      · exact .some (fin _ _ hw)
      · exact .some (fin _ _ hw)
  · exact .none

end Verif.BTree
