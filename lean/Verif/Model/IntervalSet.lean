import Verif.Model.Integer

/-!
# L1: `IntervalSet`

Models `gcs/interval_set.hh`. The `small_vector<pair<Int_, Int_>>` is a list of pairs. The iteration methods return what the generator
yields, in order, together with how it ended (`none`: ran to completion, `some e`: threw `e` after the last yield).
The generator borrowing rules (class comment) are not modelled: values are immutable.

In the mutators, `± Int_(1)` is written as plain `± 1`; `Props/IntervalSet.lean` proves that all endpoints of the result are in the 64-bit range
when those of the input and the arguments are. Every value so computed is stored as an endpoint, so the checked operators do not throw.
-/

namespace Gcs

/-- gcs/interval_set.hh:52-54, `Intervals intervals`. -/
abbrev IntervalSet := List (Int × Int)

namespace IntervalSet

/-- Constructor from a closed interval (gcs/interval_set.hh:70-72). No check that `lower ≤ upper`, as in the code. -/
def single (lower upper : Int) : IntervalSet := [(lower, upper)]

/-- gcs/interval_set.hh:93-96. -/
def isEmpty (s : IntervalSet) : Bool := List.isEmpty s

/-- The loop of `size` (gcs/interval_set.hh:104-110). -/
def sizeLoop (result : Int) : IntervalSet → Chk Int
  | [] => .ok result
  | (l, u) :: r => do
    let d ← iSub u l
    let d1 ← iAdd d 1
    let result' ← iAdd result d1
    sizeLoop result' r

/-- gcs/interval_set.hh:104-110. -/
def size (s : IntervalSet) : Chk Int := sizeLoop 0 s

/-- gcs/interval_set.hh:119-122: `front()` of an empty vector is undefined. -/
def lower (s : IntervalSet) : Chk Int :=
  match s with
  | [] => .error .ub
  | (l, _) :: _ => .ok l

/-- gcs/interval_set.hh:131-134: `back()` of an empty vector is undefined. -/
def upper (s : IntervalSet) : Chk Int :=
  match s.getLast? with
  | none => .error .ub
  | some (_, u) => .ok u

/-- gcs/interval_set.hh:141-151. -/
def contains (value : Int) : IntervalSet → Bool
  | [] => false
  | (l, u) :: r =>
    if l ≤ value ∧ value ≤ u then true
    else if u > value then false
    else contains value r

/-- gcs/interval_set.hh:158-173: two cursors. -/
def containsAnyOf : IntervalSet → IntervalSet → Bool
  | [], _ => false
  | _ :: _, [] => false
  | (l, u) :: is, (l', u') :: js =>
    if l ≤ u' ∧ l' ≤ u then true
    else if u < u' then containsAnyOf is ((l', u') :: js)
    else containsAnyOf ((l, u) :: is) js
  termination_by s t => s.length + t.length

/-- gcs/interval_set.hh:183-186. -/
def hasHoles (s : IntervalSet) : Bool := s.length > 1

/-- gcs/interval_set.hh:201-227. After moving an endpoint the loop goes on to the next interval, as in the code. -/
def erase (value : Int) : IntervalSet → IntervalSet
  | [] => []
  | (l, u) :: r =>
    if value ≥ l ∧ value ≤ u then
      if l = u then r
      else if value = l then (l + 1, u) :: erase value r
      else if value = u then (l, u - 1) :: erase value r
      else (l, value - 1) :: (value + 1, u) :: r
    else if l > value then (l, u) :: r
    else (l, u) :: erase value r

/-- The loop of `erase_range` (gcs/interval_set.hh:247-281). -/
def eraseRangeLoop (lo hi : Int) : IntervalSet → IntervalSet
  | [] => []
  | (l, u) :: r =>
    if u < lo then (l, u) :: eraseRangeLoop lo hi r
    else if l > hi then (l, u) :: r
    else if l < lo ∧ u > hi then (l, lo - 1) :: (hi + 1, u) :: r
    else if l < lo then (l, lo - 1) :: eraseRangeLoop lo hi r
    else if u > hi then (hi + 1, u) :: r
    else eraseRangeLoop lo hi r

/-- gcs/interval_set.hh:242-282. -/
def eraseRange (lo hi : Int) (s : IntervalSet) : IntervalSet :=
  if lo > hi then s else eraseRangeLoop lo hi s

/-- The loop of `erase_less_than` (gcs/interval_set.hh:293-304): `some` of the remaining set on an early `return`. -/
def eraseLessThanLoop (value : Int) : IntervalSet → Option IntervalSet
  | [] => none
  | (l, u) :: r =>
    if l ≤ value ∧ value ≤ u then some ((value, u) :: r)
    else if value < l then some ((l, u) :: r)
    else eraseLessThanLoop value r

/-- gcs/interval_set.hh:291-308, including the final check after the loop. -/
def eraseLessThan (value : Int) (s : IntervalSet) : IntervalSet :=
  match eraseLessThanLoop value s with
  | some s' => s'
  | none =>
    match s.getLast? with
    | none => s
    | some (_, u) => if u < value then [] else s

/-- gcs/interval_set.hh:317-331. -/
def eraseGreaterThan (value : Int) : IntervalSet → IntervalSet
  | [] => []
  | (l, u) :: r =>
    if l ≤ value ∧ value ≤ u then [(l, value)]
    else if value < l then []
    else (l, u) :: eraseGreaterThan value r

/-- gcs/interval_set.hh:336-339. -/
def clear (_ : IntervalSet) : IntervalSet := []

/-- gcs/interval_set.hh:351-359 (single value): `value - 1` and `++` are checked. -/
def insertAtEndOne (value : Int) (s : IntervalSet) : Chk IntervalSet :=
  match s.getLast? with
  | none => .ok [(value, value)]
  | some (l, u) => do
    let v1 ← iSub value 1
    if u = v1 then
      let u' ← iInc u
      return s.dropLast ++ [(l, u')]
    else return s ++ [(value, value)]

/-- gcs/interval_set.hh:371-379 (closed interval). -/
def insertAtEnd (lo hi : Int) (s : IntervalSet) : Chk IntervalSet :=
  match s.getLast? with
  | none => .ok [(lo, hi)]
  | some (l, u) => do
    let l1 ← iSub lo 1
    if u = l1 then return s.dropLast ++ [(l, hi)]
    else return s ++ [(lo, hi)]

/-- The inner `while` over `k` of `intersect_with` (gcs/interval_set.hh:403-410): emitted pieces, and the position of `k` afterwards. -/
def intersectInner (il iu : Int) : IntervalSet → IntervalSet × IntervalSet
  | [] => ([], [])
  | (a, b) :: ks =>
    if a ≤ iu then
      let piece := (if il > a then il else a, if iu < b then iu else b)
      if b > iu then ([piece], (a, b) :: ks)
      else
        let rest := intersectInner il iu ks
        (piece :: rest.1, rest.2)
    else ([], (a, b) :: ks)

/-- gcs/interval_set.hh:394-414. -/
def intersectWith : IntervalSet → IntervalSet → IntervalSet
  | [], _ => []
  | (l, u) :: is, js =>
    let js' := js.dropWhile (fun q => q.2 < l)
    let r := intersectInner l u js'
    r.1 ++ intersectWith is r.2

/-- What a generator yields and how it ended. -/
abbrev Gen (α : Type) := List α × Option Err

theorem iInc_eq {i i' : Int} (h : iInc i = .ok i') : i' = i + 1 := by
  unfold iInc rawAdd rawOut at h
  split at h
  · cases h
  · split at h
    · cases h; rfl
    · cases h

theorem iDec_eq {i i' : Int} (h : iDec i = .ok i') : i' = i - 1 := by
  unfold iDec rawSub rawOut at h
  split at h
  · cases h
  · split at h
    · cases h; rfl
    · cases h

/-- `for (Int_ i = l; i <= u; ++i) co_yield i;` (gcs/interval_set.hh:434-435). -/
def loopUp (i u : Int) : Gen Int :=
  if i ≤ u then
    match _h : iInc i with
    | .error e => ([i], some e)
    | .ok i' => let r := loopUp i' u; (i :: r.1, r.2)
  else ([], none)
  termination_by (u + 1 - i).toNat
  decreasing_by
    have := iInc_eq (by assumption)
    omega

/-- `for (Int_ i = u; i >= l; --i) co_yield i;` (gcs/interval_set.hh:594-595). -/
def loopDown (i l : Int) : Gen Int :=
  if i ≥ l then
    match _h : iDec i with
    | .error e => ([i], some e)
    | .ok i' => let r := loopDown i' l; (i :: r.1, r.2)
  else ([], none)
  termination_by (i + 1 - l).toNat
  decreasing_by
    have := iDec_eq (by assumption)
    omega

/-- Run generators one after the other, stopping at the first exception. -/
def Gen.append {α : Type} (a b : Gen α) : Gen α :=
  match a.2 with
  | some e => (a.1, some e)
  | none => (a.1 ++ b.1, b.2)

/-- gcs/interval_set.hh:430-437. `for_each` with a `void` callback (gcs/interval_set.hh:455-459) calls it on the same sequence. -/
def each : IntervalSet → Gen Int
  | [] => ([], none)
  | (l, u) :: r => (loopUp l u).append (each r)

/-- gcs/interval_set.hh:590-597. -/
def eachReversed (s : IntervalSet) : Gen Int :=
  s.reverse.foldr (fun p acc => (loopDown p.2 p.1).append acc) ([], none)

/-- `for_each` with a `bool` callback (gcs/interval_set.hh:460-465): the values on which the callback is called. The callback may depend
on everything it has seen (`seen`, most recent first). -/
def forEachCalls (f : List Int → Int → Bool) : (seen : List Int) → List Int → List Int
  | _, [] => []
  | seen, x :: xs => x :: (if f seen x then forEachCalls f (x :: seen) xs else [])

/-- gcs/interval_set.hh:477-483. -/
def eachInterval (s : IntervalSet) : List (Int × Int) := s

/-- `for (Int_ i = a; i != b; ++i) co_yield i;` (gcs/interval_set.hh:504-505). -/
def loopNe (i b : Int) : Gen Int :=
  if i ≠ b then
    match _h : iInc i with
    | .error e => ([i], some e)
    | .ok i' => let r := loopNe i' b; (i :: r.1, r.2)
  else ([], none)
  termination_by (i64Max - i).toNat
  decreasing_by
    have h := by assumption
    have := iInc_eq h
    have : i < i64Max := by
      unfold iInc rawAdd rawOut at h
      split at h
      · cases h
      · split at h
        · rename_i h2; unfold InW at h2; omega
        · cases h
    omega

/-- gcs/interval_set.hh:496-507. -/
def eachGap : IntervalSet → Gen Int
  | [] => ([], none)
  | [_] => ([], none)
  | (_, u) :: (l', u') :: r =>
    match iAdd u 1 with
    | .error e => ([], some e)
    | .ok a => (loopNe a l').append (eachGap ((l', u') :: r))

/-- gcs/interval_set.hh:525-535. -/
def eachGapInterval : IntervalSet → Gen (Int × Int)
  | [] => ([], none)
  | [_] => ([], none)
  | (_, u) :: (l', u') :: r =>
    match iAdd u 1 with
    | .error e => ([], some e)
    | .ok a => let g := eachGapInterval ((l', u') :: r); ((a, l') :: g.1, g.2)

/-- State of the inner loop of `each_interval_minus`: yields, `cur`, remaining `j`, exception. -/
structure MinusInner where
  out : List (Int × Int)
  cur : Int
  js : IntervalSet
  err : Option Err

/-- The inner `while` of `each_interval_minus` (gcs/interval_set.hh:569-576). -/
def minusInner (iu : Int) : Int → IntervalSet → MinusInner
  | cur, [] => ⟨[], cur, [], none⟩
  | cur, (a, b) :: js =>
    if a ≤ iu then
      let y : Chk (List (Int × Int)) := if a > cur then do return [(cur, ← iSub a 1)] else .ok []
      match y with
      | .error e => ⟨[], cur, (a, b) :: js, some e⟩
      | .ok out =>
        match iAdd b 1 with
        | .error e => ⟨out, cur, (a, b) :: js, some e⟩
        | .ok cur' =>
          if cur' > iu then ⟨out, cur', (a, b) :: js, none⟩
          else
            let r := minusInner iu cur' js
            ⟨out ++ r.out, r.cur, r.js, r.err⟩
    else ⟨[], cur, (a, b) :: js, none⟩

/-- gcs/interval_set.hh:562-581. -/
def eachIntervalMinus : IntervalSet → IntervalSet → Gen (Int × Int)
  | [], _ => ([], none)
  | (l, u) :: is, js =>
    let js' := js.dropWhile (fun q => q.2 < l)
    let r := minusInner u l js'
    match r.err with
    | some e => (r.out, some e)
    | none =>
      let g := eachIntervalMinus is r.js
      (r.out ++ (if r.cur ≤ u then [(r.cur, u)] else []) ++ g.1, g.2)

end IntervalSet
end Gcs
