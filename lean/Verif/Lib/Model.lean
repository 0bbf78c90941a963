import Verif.Spec.Basic
/-!
# Model of the code shared by both maps: `src/lib.rs`

`MapTrait` is the crate-private trait `Map` (lib.rs:195-251); the entry API
(lib.rs:254-330) and deserialization (lib.rs:345-472) are written once against it, as in
the code.
-/
namespace Verif.Lib

/-- Result of `check_half` (lib.rs:213-215), with the error strings reduced to the one
distinction the caller makes (lib.rs:440-443). -/
inductive Chk where
  | ok (n : Nat)
  | unsorted
  | other
  deriving DecidableEq, Repr

/-- lib.rs:195-251 `trait Map`; `M` is the map type, `H` is `Half`.  Outer `none` = panic. -/
structure MapTrait (K V M H : Type _) where
  /-- 217-220 `contains_key_` -/
  contains : M → (K → Ordering) → Bool
  /-- 222-226 `get_mut_`, followed by a write `g` through the reference; the flag tells
  whether a reference was returned. -/
  getMut : M → (K → Ordering) → (V → V) → M × Bool
  /-- 228-235 `insert_` -/
  insert : M → K → V → Option (M × Option V)
  /-- 237 `new_` -/
  new : M
  /-- 205 `MAX_HALF_LEN` -/
  maxHalfLen : Nat
  /-- 213-215 `check_half` -/
  checkHalf : H → Chk
  /-- 241 `make_half` -/
  makeHalf : List (K × V) → Option H
  /-- 244-247 `make_whole` -/
  makeWhole : H → Nat → Option M
  /-- 250 `stitch` -/
  stitch : H → H → Option H

namespace MapTrait
variable {K V M H : Type _} (T : MapTrait K V M H)

/-! ### Entry API -/

/-- lib.rs:260-270 `Entry::and_modify`; the entry is (map, key). -/
def andModify [Ord K] (m : M) (k : K) (f : V → V) : M := (T.getMut m (compare k) f).1

/-- lib.rs:277-287 `or_aux` and 316-329 `or_insert_with_key`, followed by a write `g`
through the returned reference.  `default` is the `FnOnce` closure as a transformer of an
outside state `σ`, given the key (ignored by `or_aux`'s callers). -/
def orInsertWithKey [Ord K] {σ : Type _} (m : M) (k : K) (default : σ → K → σ × V) (s : σ)
    (g : V → V) : Option (σ × M) :=
  let afterInsert : Option (σ × M) :=
    if T.contains m (compare k) then some (s, m)
    else
      let d := default s k
      (T.insert m k d.2).map (fun x => (d.1, x.1))
  match afterInsert with
  | none => none
  | some (s', m') =>
    let x := T.getMut m' (compare k) g
    if x.2 then some (s', x.1) else none

/-- lib.rs:297-303 `or_insert`. -/
def orInsert [Ord K] (m : M) (k : K) (v : V) (g : V → V) : Option M :=
  (T.orInsertWithKey (σ := Unit) m k (fun _ _ => ((), v)) () g).map (·.2)

/-! ### Deserialization -/

/-- lib.rs:190-193 `StitchErr`. -/
inductive StitchErr (H : Type _) where
  | tooFew (h : Option H)
  | other

/-- The leaf loop, lib.rs:386-407.  The entries still to come are `es`; `err` says whether
the deserializer reports an error after them rather than the end.  `n` is the number still
wanted, `scratch` what was read so far. -/
def leafLoop (err : Bool) : Nat → List (K × V) → List (K × V) →
    Option (Except (StitchErr H) H × List (K × V))
  | 0, scratch, es => (T.makeHalf scratch).map (fun h => (.ok h, es))
  | _ + 1, scratch, [] =>
    if err then some (.error .other, [])
    else if scratch.isEmpty then some (.error (.tooFew none), [])
    else (T.makeHalf scratch).map (fun h => (.error (.tooFew (some h)), []))
  | n + 1, scratch, e :: es => leafLoop err n (scratch ++ [e]) es

/-- Combine the results of the two recursive calls, lib.rs:414-428. -/
def combine (lhs : H) : Except (StitchErr H) H → Option (Except (StitchErr H) H)
  | .ok rhs => (T.stitch lhs rhs).map .ok
  | .error (.tooFew none) => some (.error (.tooFew (some lhs)))
  | .error (.tooFew (some rhs)) => (T.stitch lhs rhs).map (fun h => .error (.tooFew (some h)))
  | .error .other => some (.error .other)

/-- lib.rs:373-430 `build_map_by_halves`.  `usizeMax` bounds `len + 1` (line 408): with
overflow checks on, `usize::MAX + 1` panics. -/
def buildByHalves (usizeMax : Nat) (err : Bool) (len : Nat) (es : List (K × V)) :
    Option (Except (StitchErr H) H × List (K × V)) :=
  if len = 0 then none
  else if len ≤ T.maxHalfLen then T.leafLoop err len [] es
  else if usizeMax < len + 1 then none
  else if hlt : (len + 1) / 2 < len then
    match buildByHalves usizeMax err ((len + 1) / 2) es with
    | none => none
    | some (.error e, es') => some (.error e, es')
    | some (.ok lhs, es') =>
      match buildByHalves usizeMax err (len - (len + 1) / 2) es' with
      | none => none
      | some (rhs, es'') => (T.combine lhs rhs).map (fun r => (r, es''))
  else none -- len = 1 > MAX_HALF_LEN: unbounded recursion; impossible for MAX_HALF_LEN ≥ 1
termination_by len
decreasing_by all_goals omega

/-- The insertion loop, lib.rs:466-468. -/
def insertLoop (err : Bool) : M → List (K × V) → Option (Except Unit M)
  | m, [] => if err then some (.error ()) else some (.ok m)
  | m, e :: es =>
    match T.insert m e.1 e.2 with
    | none => none
    | some (m', _) => insertLoop err m' es

/-- The `debug_assert!` condition of lib.rs:440-443. -/
def saneChk (len : Nat) : Chk → Bool
  | .ok sz => len == sz
  | .unsorted => true
  | .other => false

/-- lib.rs:365-471 `visit_map`: outer `none` = panic, `error` = the deserializer's error.
`debug` = debug assertions enabled (line 440). -/
def visitMap (debug : Bool) (usizeMax : Nat) (hint : Option Nat) (es : List (K × V))
    (err : Bool) : Option (Except Unit M) :=
  match hint with
  | none => T.insertLoop err T.new es
  | some 0 => T.insertLoop err T.new es
  | some len =>
    match T.buildByHalves usizeMax err len es with
    | none => none
    | some (.ok h, es') =>
      if debug && !saneChk len (T.checkHalf h) then none
      else
        match T.makeWhole h len with
        | none => none
        | some m => T.insertLoop err m es'
    | some (.error (.tooFew (some h)), _) => (T.makeWhole h len).map .ok
    | some (.error (.tooFew none), _) => some (.ok T.new)
    | some (.error .other, _) => some (.error ())

end MapTrait
end Verif.Lib
