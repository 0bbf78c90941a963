import Verif.Lib.Model
import Verif.Spec.Lemmas
/-!
# Deserialization by halves, generically in the map

`Sound` collects what a map implementation has to satisfy; from it `visitMap` is shown to
be successive insertion.
-/
namespace Verif.Lib
variable {K V M H : Type _} [Ord K]

/-- Obligations of an implementation.  `Good L h l`: `h` is the half of exactly the `L`
entries `l`; `Part L h l`: `h` is what a build aimed at `L` entries produced from the fewer
entries `l`. -/
structure MapTrait.Sound (T : MapTrait K V M H) (WF : M → Prop) (abs : M → List (K × V))
    (Good Part : Nat → H → List (K × V) → Prop) : Prop where
  new_wf : WF T.new
  new_abs : abs T.new = []
  insert : ∀ m k v, WF m → ∃ m' o, T.insert m k v = some (m', o) ∧ WF m' ∧
    abs m' = Spec.insert k v (abs m)
  max_pos : 1 ≤ T.maxHalfLen
  good_len : ∀ L h l, Good L h l → l.length = L
  part_len : ∀ L h l, Part L h l → l.length ≤ L
  good_leaf : ∀ l, l ≠ [] → l.length ≤ T.maxHalfLen → ∃ h, T.makeHalf l = some h ∧ Good l.length h l
  part_leaf : ∀ L l, l ≠ [] → l.length < L → L ≤ T.maxHalfLen →
    ∃ h, T.makeHalf l = some h ∧ Part L h l
  good_stitch : ∀ L h1 l1 h2 l2, T.maxHalfLen < L → Good ((L + 1) / 2) h1 l1 →
    Good (L - (L + 1) / 2) h2 l2 → ∃ h, T.stitch h1 h2 = some h ∧ Good L h (l1 ++ l2)
  part_stitch : ∀ L h1 l1 h2 l2, T.maxHalfLen < L → Good ((L + 1) / 2) h1 l1 →
    Part (L - (L + 1) / 2) h2 l2 → ∃ h, T.stitch h1 h2 = some h ∧ Part L h (l1 ++ l2)
  part_left : ∀ L h l, T.maxHalfLen < L → Good ((L + 1) / 2) h l → Part L h l
  part_up : ∀ L h l, T.maxHalfLen < L → Part ((L + 1) / 2) h l → Part L h l
  good_part : ∀ L h l, Good L h l → Part L h l
  check : ∀ L h l, Good L h l → T.checkHalf h = .ok L ∨ T.checkHalf h = .unsorted
  whole : ∀ L h l, Part L h l → ∃ m, T.makeWhole h L = some m ∧ WF m ∧ abs m = Spec.insertAll [] l

namespace MapTrait
variable {T : MapTrait K V M H} {WF : M → Prop} {abs : M → List (K × V)}
  {Good Part : Nat → H → List (K × V) → Prop}

/-- What a build aimed at `L` entries must return on the stream `es` (ending in an error iff
`err`). -/
def BuildOk (Good Part : Nat → H → List (K × V) → Prop) (err : Bool) (L : Nat)
    (es : List (K × V)) (r : Except (StitchErr H) H × List (K × V)) : Prop :=
  if L ≤ es.length then ∃ h, r.1 = .ok h ∧ Good L h (es.take L) ∧ r.2 = es.drop L
  else if err then r.1 = .error .other
  else if es = [] then r = (.error (.tooFew none), [])
  else ∃ h, r.1 = .error (.tooFew (some h)) ∧ Part L h es ∧ r.2 = []

omit [Ord K] in
theorem leafLoop_ok [Ord K] (S : T.Sound WF abs Good Part) (err : Bool) :
    ∀ (n : Nat) (scratch es : List (K × V)), scratch.length + n ≤ T.maxHalfLen →
      0 < scratch.length + n →
      ∃ r, T.leafLoop err n scratch es = some r ∧
        (if n ≤ es.length then ∃ h, r.1 = .ok h ∧ Good (scratch.length + n) h (scratch ++ es.take n)
            ∧ r.2 = es.drop n
         else if err then r.1 = .error .other
         else if scratch ++ es = [] then r = (.error (.tooFew none), [])
         else ∃ h, r.1 = .error (.tooFew (some h)) ∧ Part (scratch.length + n) h (scratch ++ es) ∧
          r.2 = []) := by
  intro n
  induction n with
  | zero =>
    intro scratch es h1 h2
    obtain ⟨h, e, g⟩ := S.good_leaf scratch (by intro h; simp [h] at h2) (by simpa using h1)
    exact ⟨(.ok h, es), by simp [leafLoop, e], by simp; exact g⟩
  | succ n ih =>
    intro scratch es h1 h2
    cases es with
    | nil =>
      cases err with
      | true => exact ⟨_, by simp [leafLoop]; rfl, by simp⟩
      | false =>
        by_cases hs : scratch = []
        · subst hs; exact ⟨(.error (.tooFew none), []), by simp [leafLoop], by simp⟩
        · obtain ⟨h, e, g⟩ := S.part_leaf (scratch.length + (n + 1)) scratch hs (by omega) h1
          exact ⟨(.error (.tooFew (some h)), []), by simp [leafLoop, e, hs], by simp [hs, g]⟩
    | cons e es =>
      obtain ⟨r, e1, e2⟩ := ih (scratch ++ [e]) es (by simp; omega) (by simp; omega)
      refine ⟨r, by simp [leafLoop, e1], ?_⟩
      have hl : (scratch ++ [e]).length + n = scratch.length + (n + 1) := by simp; omega
      rw [hl] at e2
      simpa using e2

theorem buildByHalves_ok (S : T.Sound WF abs Good Part) {usizeMax : Nat} (err : Bool) :
    ∀ (L : Nat) (es : List (K × V)), 0 < L → L < usizeMax →
      ∃ r, T.buildByHalves usizeMax err L es = some r ∧ BuildOk Good Part err L es r := by
  intro L
  induction L using Nat.strongRecOn with
  | ind L ih =>
    intro es hL hU
    rw [buildByHalves, if_neg (by omega)]
    by_cases hm : L ≤ T.maxHalfLen
    · rw [if_pos hm]
      obtain ⟨r, e1, e2⟩ := leafLoop_ok S err L [] es (by simpa using hm) (by simpa using hL)
      exact ⟨r, e1, by simpa [BuildOk] using e2⟩
    · rw [if_neg hm, if_neg (by omega)]
      have := S.max_pos
      have hlt : (L + 1) / 2 < L := by omega
      rw [dif_pos hlt]
      obtain ⟨⟨r1, es1⟩, e1, b1⟩ := ih _ hlt es (by omega) (by omega)
      simp only [e1]
      unfold BuildOk at b1
      dsimp only at b1
      by_cases hle : (L + 1) / 2 ≤ es.length
      · rw [if_pos hle] at b1
        obtain ⟨lhs, rfl, g1, rfl⟩ := b1
        obtain ⟨⟨r2, es2⟩, e2, b2⟩ := ih (L - (L + 1) / 2) (by omega) (es.drop ((L + 1) / 2)) (by omega)
          (by omega)
        simp only [e2]
        unfold BuildOk at b2
        dsimp only at b2
        by_cases hle2 : L ≤ es.length
        · rw [if_pos (by simp; omega)] at b2
          obtain ⟨rhs, rfl, g2, rfl⟩ := b2
          obtain ⟨h, e3, g3⟩ := S.good_stitch L lhs _ rhs _ (by omega) g1 g2
          refine ⟨_, by simp only [combine, e3]; rfl, ?_⟩
          simp only [BuildOk, if_pos hle2]
          refine ⟨h, rfl, ?_, ?_⟩
          · have : es.take ((L + 1) / 2) ++ (es.drop ((L + 1) / 2)).take (L - (L + 1) / 2) = es.take L := by
              rw [← List.take_add]; congr 1; omega
            rw [← this]; exact g3
          · rw [List.drop_drop]; congr 1; omega
        · rw [if_neg (by simp; omega)] at b2
          cases err with
          | true =>
            simp only [if_true] at b2; subst b2
            exact ⟨_, by simp only [combine]; rfl, by simp [BuildOk, hle2]⟩
          | false =>
            simp only [Bool.false_eq_true, if_false] at b2
            have hne : es ≠ [] := by intro h; simp [h] at hle; omega
            by_cases hd : es.drop ((L + 1) / 2) = []
            · rw [if_pos hd] at b2
              simp only [Prod.mk.injEq] at b2
              obtain ⟨rfl, rfl⟩ := b2
              refine ⟨_, by simp only [combine]; rfl, ?_⟩
              simp only [BuildOk, if_neg hle2, Bool.false_eq_true, if_false, if_neg hne, and_true]
              refine ⟨lhs, rfl, ?_⟩
              have : es.take ((L + 1) / 2) = es := by
                exact List.take_of_length_le (by simpa using hd)
              rw [this] at g1
              exact S.part_left L lhs _ (by omega) g1
            · rw [if_neg hd] at b2
              obtain ⟨rhs, rfl, g2, rfl⟩ := b2
              obtain ⟨h, e3, g3⟩ := S.part_stitch L lhs _ rhs _ (by omega) g1 g2
              refine ⟨_, by simp only [combine, e3]; rfl, ?_⟩
              simp only [BuildOk, if_neg hle2, Bool.false_eq_true, if_false, if_neg hne, and_true]
              exact ⟨h, rfl, by rw [List.take_append_drop] at g3; exact g3⟩
      · rw [if_neg hle] at b1
        have hle2 : ¬ L ≤ es.length := by omega
        cases err with
        | true =>
          simp only [if_true] at b1; subst b1
          exact ⟨_, rfl, by simp [BuildOk, hle2]⟩
        | false =>
          simp only [Bool.false_eq_true, if_false] at b1
          by_cases hne : es = []
          · rw [if_pos hne] at b1
            simp only [Prod.mk.injEq] at b1
            obtain ⟨rfl, rfl⟩ := b1
            exact ⟨_, rfl, by simp [BuildOk, hne]; omega⟩
          · rw [if_neg hne] at b1
            obtain ⟨h, rfl, g, rfl⟩ := b1
            refine ⟨_, rfl, ?_⟩
            simp only [BuildOk, if_neg hle2, Bool.false_eq_true, if_false, if_neg hne, and_true]
            exact ⟨h, rfl, S.part_up L h es (by omega) g⟩

theorem insertLoop_ok (S : T.Sound WF abs Good Part) (err : Bool) :
    ∀ (es : List (K × V)) (m : M), WF m →
      if err then T.insertLoop err m es = some (.error ())
      else ∃ m', T.insertLoop err m es = some (.ok m') ∧ WF m' ∧ abs m' = Spec.insertAll (abs m) es := by
  intro es
  induction es with
  | nil => intro m h; cases err <;> simp [insertLoop, Spec.insertAll, h]
  | cons e es ih =>
    intro m h
    obtain ⟨m1, o, e1, w1, a1⟩ := S.insert m e.1 e.2 h
    have := ih m1 w1
    simp only [insertLoop, e1]
    cases err with
    | true => simpa using this
    | false =>
      simp only [Bool.false_eq_true, if_false] at this ⊢
      obtain ⟨m', e2, w2, a2⟩ := this
      exact ⟨m', e2, w2, by rw [a2, a1]; rfl⟩

/-- Deserialization = successive insertion into an empty map, whatever the hint. -/
theorem visitMap_ok (S : T.Sound WF abs Good Part) (debug : Bool) {usizeMax : Nat}
    (hint : Option Nat) (hh : ∀ n, hint = some n → n < usizeMax) (es : List (K × V)) (err : Bool) :
    if err then T.visitMap debug usizeMax hint es err = some (.error ())
    else ∃ m, T.visitMap debug usizeMax hint es err = some (.ok m) ∧ WF m ∧
      abs m = Spec.insertAll [] es := by
  have base := insertLoop_ok S err es T.new S.new_wf
  rw [S.new_abs] at base
  match hint, hh with
  | none, _ => simpa [visitMap] using base
  | some 0, _ => simpa [visitMap] using base
  | some (L + 1), hh =>
    obtain ⟨⟨r, es'⟩, e1, b⟩ := buildByHalves_ok S (usizeMax := usizeMax) err (L + 1) es (by omega)
      (hh _ rfl)
    simp only [visitMap, e1]
    unfold BuildOk at b
    dsimp only at b
    by_cases hle : L + 1 ≤ es.length
    · rw [if_pos hle] at b
      obtain ⟨h, rfl, g, rfl⟩ := b
      obtain ⟨m, e2, w2, a2⟩ := S.whole _ h _ (S.good_part _ _ _ g)
      have hsane : saneChk (L + 1) (T.checkHalf h) = true := by
        rcases S.check _ _ _ g with hc | hc <;> simp [hc, saneChk]
      simp only [hsane, Bool.not_true, Bool.and_false, Bool.false_eq_true, if_false, e2]
      have := insertLoop_ok S err (es.drop (L + 1)) m w2
      cases err with
      | true => simpa using this
      | false =>
        simp only [Bool.false_eq_true, if_false] at this ⊢
        obtain ⟨m', e3, w3, a3⟩ := this
        exact ⟨m', e3, w3, by rw [a3, a2, ← Spec.insertAll_append, List.take_append_drop]⟩
    · rw [if_neg hle] at b
      cases err with
      | true => simp only [if_true] at b; subst b; simp
      | false =>
        simp only [Bool.false_eq_true, if_false] at b ⊢
        by_cases hne : es = []
        · rw [if_pos hne] at b
          simp only [Prod.mk.injEq] at b
          obtain ⟨rfl, rfl⟩ := b
          exact ⟨T.new, rfl, S.new_wf, by rw [S.new_abs, hne]; rfl⟩
        · rw [if_neg hne] at b
          obtain ⟨h, rfl, g, rfl⟩ := b
          obtain ⟨m, e2, w2, a2⟩ := S.whole _ h _ g
          exact ⟨m, by simp [e2], w2, a2⟩

end MapTrait
end Verif.Lib
