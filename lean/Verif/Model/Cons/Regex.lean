import Verif.Spec.Regex
import Verif.Model.Cons.Layered

/-!
# Regular expressions (`gcs/constraints/regular/regex.cc`)

A text is split into tokens, parsed into a tree with five kinds of node, turned into an automaton with empty moves, and then into one without. `Regular` takes that automaton.

Simplified: texts are lists of characters (in the code, bytes; all that are not ASCII are refused). The token `End` is the end of the list of tokens. The vectors `eps` and `sym`, which contain for each state the moves from
there, are lists of moves that include where they are from. Trees are copied freely, and memory is not limited. The loops have as much fuel as they need; that they do not run out is proved.
-/

namespace Gcs.Regex
open IntervalSet

/-- `set::insert`, for a set that is listed in increasing order. -/
def setInsert {α : Type} [LT α] [DecidableLT α] [DecidableEq α] (x : α) : List α → List α
  | [] => [x]
  | y :: ys => if x < y then x :: y :: ys else if x = y then y :: ys else y :: setInsert x ys

/-! ## Tokens -/

/-- The next digit of a number, if the character is one (regex.cc:72-75). -/
def digit (c : Char) : Option Int := if '0' ≤ c ∧ c ≤ '9' then some ((c.toNat : Int) - 48) else none

/-- Single characters (regex.cc:81-97). -/
def sign : Char → Option Tok
  | '|' => some .bar
  | '+' => some .plus
  | '*' => some .star
  | '(' => some .groupOpen
  | ')' => some .groupClose
  | '?' => some .opt
  | '{' => some .quantOpen
  | '}' => some .quantClose
  | ',' => some .comma
  | '.' => some .any
  | '[' => some .classOpen
  | ']' => some .classClose
  | '-' => some .dash
  | '^' => some .caret
  | _ => none

/-- A number that has been read becomes a token (regex.cc:78). -/
def flush : Option Int → List Tok → List Tok
  | some v, ts => .num v.toNat :: ts
  | none, ts => ts

/-- `tokenize` (regex.cc:63-102). The inner loop, which reads a number, is a state of the outer one: `p` is the number so far. The arithmetic is that of `long long`, and is undefined if the number is too large. -/
def lex : Option Int → List Char → Chk (List Tok)
  | p, [] => .ok (flush p [])
  | p, c :: s =>
    match digit c with
    | some k => do
      let v ← rawMul i64Max (p.getD 0) 10
      let v ← rawAdd i64Max v k
      lex (some v) s
    | none =>
      if c = ' ' ∨ c = '\t' ∨ c = '\n' then do
        let ts ← lex none s
        .ok (flush p ts)
      else
        match sign c with
        | some t => do
          let ts ← lex none s
          .ok (flush p (t :: ts))
        | none => .error .invalidProblem

/-! ## Trees -/

/-- `CoreNode` (regex.cc:110-124). -/
inductive Core where
  | empty
  | symbols (xs : List Int)
  | concat (a b : Core)
  | union (a b : Core)
  | star (a : Core)
  deriving Repr, DecidableEq

/-- The loop of `repeat_exact` (regex.cc:180-181), which has `k` rounds left. -/
def repeatMore (atom : Core) : Nat → Core → Core
  | 0, c => c
  | k + 1, c => repeatMore atom k (.concat c atom)

/-- `repeat_exact` (regex.cc:175-183). -/
def repeatExact (atom : Core) (n : Nat) : Core := if n = 0 then .empty else repeatMore atom (n - 1) atom

/-- `repeat_at_least` (regex.cc:186-189). -/
def repeatAtLeast (atom : Core) (n : Nat) : Core := .concat (repeatExact atom n) (.star atom)

/-- `repeat_between` (regex.cc:192-198). -/
def repeatBetween (atom : Core) (n m : Nat) : Core := repeatMore (.union atom .empty) (m - n) (repeatExact atom n)

/-! ## Parser -/

/-- The values of a loop from `lo` to `hi` (regex.cc:347, and regular.cc:562): the counter is an `Integer`, and its `++` throws at the largest one. -/
def countUp : Nat → Int → Int → Chk (List Int)
  | 0, lo, hi => if lo ≤ hi then .error .diverge else .ok []
  | f + 1, lo, hi =>
    if lo ≤ hi then do
      let next ← iAdd lo 1
      let xs ← countUp f next hi
      .ok (lo :: xs)
    else .ok []

/-- Some values are inserted. -/
def insertAll (xs items : List Int) : List Int := xs.foldl (fun s x => setInsert x s) items

/-- The loop of `parse_set_items` (regex.cc:340-352). The ends of a range are swapped if they are the wrong way round. -/
def setItems (items : List Int) : List Tok → Chk (List Int × List Tok)
  | .num n :: .dash :: .num m :: ts => do
    let lo : Int := if m < n then m else n
    let hi : Int := if m < n then n else m
    let xs ← countUp (hi - lo + 1).toNat lo hi
    setItems (insertAll xs items) ts
  | .num _ :: .dash :: _ => .error .invalidProblem
  | .num n :: ts => setItems (setInsert (n : Int) items) ts
  | ts => .ok (items, ts)

/-- `parse_set_items` (regex.cc:335-354). -/
def parseItems (ts : List Tok) : Chk (List Int × List Tok) :=
  match ts with
  | .num _ :: _ => setItems [] ts
  | _ => .error .invalidProblem

/-- The end of `parse_class` (regex.cc:323-331). -/
def closeClass (alphabet : List Int) (negated : Bool) (items : List Int) : List Tok → Chk (Core × List Tok)
  | .classClose :: ts => .ok (.symbols (if negated then alphabet.filter fun x => decide (x ∉ items) else items), ts)
  | _ => .error .invalidProblem

/-- `parse_class` (regex.cc:314-332); the opening bracket has been read. -/
def parseClass (alphabet : List Int) : List Tok → Chk (Core × List Tok)
  | .caret :: ts => do
    let r ← parseItems ts
    closeClass alphabet true r.1 r.2
  | ts => do
    let r ← parseItems ts
    closeClass alphabet false r.1 r.2

/-- `parse_quantifier` (regex.cc:276-293). -/
def parseQuantifier (atom : Core) : List Tok → Chk (Core × List Tok)
  | .num n :: .quantClose :: ts => .ok (repeatExact atom n, ts)
  | .num n :: .comma :: .quantClose :: ts => .ok (repeatAtLeast atom n, ts)
  | .num n :: .comma :: .num m :: .quantClose :: ts => if m < n then .error .invalidProblem else .ok (repeatBetween atom n m, ts)
  | _ => .error .invalidProblem

/-- What follows an atom in `parse_factor` (regex.cc:261-272). -/
def parseSuffix (atom : Core) : List Tok → Chk (Core × List Tok)
  | .star :: ts => .ok (.star atom, ts)
  | .plus :: ts => .ok (.concat atom (.star atom), ts)
  | .opt :: ts => .ok (.union atom .empty, ts)
  | .quantOpen :: ts => parseQuantifier atom ts
  | ts => .ok (atom, ts)

/-- `starts_atom` (regex.cc:232-235). -/
def startsAtom : List Tok → Bool
  | .num _ :: _ => true
  | .any :: _ => true
  | .classOpen :: _ => true
  | .groupOpen :: _ => true
  | _ => false

mutual
/-- `parse_expression` (regex.cc:238-246). -/
def parseExpr (alphabet : List Int) : Nat → List Tok → Chk (Core × List Tok)
  | 0, _ => .error .diverge
  | f + 1, ts => do
    let (a, ts) ← parseTerm alphabet f ts
    match ts with
    | .bar :: ts => do
      let (b, ts) ← parseExpr alphabet f ts
      .ok (.union a b, ts)
    | ts => .ok (a, ts)

/-- `parse_term` (regex.cc:249-255). -/
def parseTerm (alphabet : List Int) : Nat → List Tok → Chk (Core × List Tok)
  | 0, _ => .error .diverge
  | f + 1, ts => do
    let (a, ts) ← parseFactor alphabet f ts
    if startsAtom ts then do
      let (b, ts) ← parseTerm alphabet f ts
      .ok (.concat a b, ts)
    else .ok (a, ts)

/-- `parse_factor` (regex.cc:258-273). -/
def parseFactor (alphabet : List Int) : Nat → List Tok → Chk (Core × List Tok)
  | 0, _ => .error .diverge
  | f + 1, ts => do
    let (a, ts) ← parseAtom alphabet f ts
    parseSuffix a ts

/-- `parse_atom` (regex.cc:296-311). -/
def parseAtom (alphabet : List Int) : Nat → List Tok → Chk (Core × List Tok)
  | 0, _ => .error .diverge
  | _ + 1, .num n :: ts => .ok (.symbols [(n : Int)], ts)
  | _ + 1, .any :: ts => .ok (.symbols alphabet, ts)
  | _ + 1, .classOpen :: ts => parseClass alphabet ts
  | f + 1, .groupOpen :: ts => do
    let (a, ts) ← parseExpr alphabet f ts
    match ts with
    | .groupClose :: ts => .ok (a, ts)
    | _ => .error .invalidProblem
  | _ + 1, _ => .error .invalidProblem
end

/-- `parse_regex` (regex.cc:357-364). -/
def parse (s : List Char) (alphabet : List Int) : Chk Core := do
  let ts ← lex none s
  let (c, ts) ← parseExpr alphabet (4 * ts.length + 4) ts
  if ts = [] then .ok c else .error .invalidProblem

/-! ## Automata -/

/-- `ThompsonBuilder` (regex.cc:370-380): how many states there are, the empty moves, and the moves on a symbol. -/
structure Builder where
  size : Nat
  eps : List (Nat × Nat)
  sym : List (Nat × Int × Nat)
  deriving Repr

/-- Two new states (`add_state` twice, regex.cc:375-380). -/
def Builder.grow (b : Builder) : Builder := { b with size := b.size + 2 }

/-- `ThompsonBuilder::build` (regex.cc:388-430): the start, the accepting state and the states so far. -/
def build : Core → Builder → (Nat × Nat) × Builder
  | .empty, b => ((b.size, b.size + 1), { b.grow with eps := b.eps ++ [(b.size, b.size + 1)] })
  | .symbols xs, b => ((b.size, b.size + 1), { b.grow with sym := b.sym ++ xs.map fun x => (b.size, x, b.size + 1) })
  | .concat l r, b =>
    let x := build l b
    let y := build r x.2
    ((x.1.1, y.1.2), { y.2 with eps := y.2.eps ++ [(x.1.2, y.1.1)] })
  | .union l r, b =>
    let x := build l b.grow
    let y := build r x.2
    ((b.size, b.size + 1), { y.2 with eps := y.2.eps ++ [(b.size, x.1.1), (b.size, y.1.1), (x.1.2, b.size + 1), (y.1.2, b.size + 1)] })
  | .star l, b =>
    let x := build l b.grow
    ((b.size, b.size + 1), { x.2 with eps := x.2.eps ++ [(b.size, x.1.1), (b.size, b.size + 1), (x.1.2, x.1.1), (x.1.2, b.size + 1)] })

/-- `eps[p]`. -/
def Builder.epsFrom (b : Builder) (p : Nat) : List Nat := b.eps.filterMap fun e => if e.1 = p then some e.2 else none

/-- `sym[p]`. -/
def Builder.symFrom (b : Builder) (p : Nat) : List (Int × Nat) := b.sym.filterMap fun e => if e.1 = p then some e.2 else none

/-- The inner loop of `closure` (regex.cc:449-451): states that have not been seen are marked as seen, and pushed. -/
def pushNew : List Nat → List Nat → List Nat → List Nat × List Nat
  | [], seen, stack => (seen, stack)
  | y :: ys, seen, stack => if y ∈ seen then pushNew ys seen stack else pushNew ys (setInsert y seen) (y :: stack)

/-- The loop of `closure` (regex.cc:446-452); the head of the list is the top of the stack. -/
def closeLoop (b : Builder) : Nat → List Nat → List Nat → Chk (List Nat)
  | _, seen, [] => .ok seen
  | 0, _, _ :: _ => .error .diverge
  | f + 1, seen, x :: stack =>
    let r := pushNew (b.epsFrom x) seen stack
    closeLoop b f r.1 r.2

/-- `closure` (regex.cc:443-454). -/
def closure (b : Builder) (q : Nat) : Chk (List Nat) := closeLoop b (b.size + 1) [q] [q]

/-- `transitions[symbol].insert(target)` (regex.cc:471), for a map that is listed in increasing order. -/
def mapInsert (x : Int) (t : Nat) : List (Int × List Nat) → List (Int × List Nat)
  | [] => [(x, [t])]
  | (y, s) :: m => if x < y then (x, [t]) :: (y, s) :: m else if x = y then (y, setInsert t s) :: m else (y, s) :: mapInsert x t m

/-- The moves of one state are visited (regex.cc:469-474). The keys of `old_to_new` are listed in the order in which they were inserted; the new number of a state is its position. -/
def visit : List (Int × Nat) → List (Int × List Nat) → List Nat → List Nat → List (Int × List Nat) × List Nat × List Nat
  | [], m, known, queue => (m, known, queue)
  | (x, t) :: rest, m, known, queue =>
    if t ∈ known then visit rest (mapInsert x t m) known queue else visit rest (mapInsert x t m) (known ++ [t]) (queue ++ [t])

/-- The loop of `build_nfa` (regex.cc:463-477). -/
def explore (b : Builder) (accept : Nat) : Nat → List Nat → List Nat → Chk (List Nat × List (List (Int × List Nat) × Bool))
  | _, known, [] => .ok (known, [])
  | 0, _, _ :: _ => .error .diverge
  | f + 1, known, q :: queue => do
    let cl ← closure b q
    let r := visit (cl.flatMap b.symFrom) [] known queue
    let (known, rest) ← explore b accept f r.2.1 r.2.2
    .ok (known, (r.1, decide (accept ∈ cl)) :: rest)

/-- The targets of a move are renumbered (regex.cc:485-486). The exception of `at` is one that is not expected. -/
def renumberSet (known : List Nat) : List Nat → List Int → Chk (List Int)
  | [], acc => .ok acc
  | t :: ts, acc =>
    match known.idxOf? t with
    | some i => renumberSet known ts (setInsert (i : Int) acc)
    | none => .error .unexpected

/-- The moves of one state are renumbered (regex.cc:483-487). -/
def renumber (known : List Nat) : List (Int × List Nat) → Chk (List (Int × List Int))
  | [] => .ok []
  | (x, ts) :: m => do
    let s ← renumberSet known ts []
    let rest ← renumber known m
    .ok ((x, s) :: rest)

/-- The moves of all states, and the final ones, from number `i` on (regex.cc:482-490). -/
def number (known : List Nat) : Nat → List (List (Int × List Nat) × Bool) → Chk (List (List (Int × List Int)) × List Int)
  | _, [] => .ok ([], [])
  | i, (m, final) :: rest => do
    let m ← renumber known m
    let (ms, fs) ← number known (i + 1) rest
    .ok (m :: ms, if final then (i : Int) :: fs else fs)

/-- `RegexNfa` (regex.hh:24-29). -/
structure Nfa where
  numStates : Nat
  transitions : List (List (Int × List Int))
  final : List Int
  deriving Repr, DecidableEq

/-- `build_nfa` (regex.cc:437-492). -/
def buildNfa (c : Core) : Chk Nfa := do
  let r := build c ⟨0, [], []⟩
  let (known, raw) ← explore r.2 r.1.2 (r.2.size + 1) [r.1.1] [r.1.1]
  let (transitions, final) ← number known 0 raw
  .ok ⟨raw.length, transitions, final⟩

/-- `regex_to_nfa` (regex.cc:536-541). -/
def toNfa (s : List Char) (alphabet : List Int) : Chk Nfa := do
  let c ← parse s (insertAll alphabet [])
  buildNfa c

/-! ## The reference matcher -/

/-- `set<size_t>`: the union of two sets. -/
def merge (xs ys : List Nat) : List Nat := xs.foldl (fun s x => setInsert x s) ys

/-- The loop for a star (regex.cc:520-529), where `step` are the ends of one more match. -/
def starLoop (step : Nat → Chk (List Nat)) : Nat → List Nat → List Nat → Chk (List Nat)
  | _, seen, [] => .ok seen
  | 0, _, _ :: _ => .error .diverge
  | f + 1, seen, i :: stack => do
    let js ← step i
    let r := pushNew js seen stack
    starLoop step f r.1 r.2

/-- The loop for a concatenation (regex.cc:507-511). -/
def concatLoop (step : Nat → Chk (List Nat)) : List Nat → List Nat → Chk (List Nat)
  | [], ends => .ok ends
  | i :: mids, ends => do
    let js ← step i
    concatLoop step mids (merge js ends)

/-- `match_ends` (regex.cc:497-533). -/
def matchEnds : Core → List Int → Nat → Chk (List Nat)
  | .empty, _, i => .ok [i]
  | .symbols xs, w, i => .ok (match w[i]? with | some x => if x ∈ xs then [i + 1] else [] | none => [])
  | .concat a b, w, i => do
    let mids ← matchEnds a w i
    concatLoop (matchEnds b w) mids []
  | .union a b, w, i => do
    let xs ← matchEnds a w i
    let ys ← matchEnds b w i
    .ok (merge ys xs)
  | .star a, w, i => starLoop (matchEnds a w) (w.length + 1) [i] [i]

/-- `regex_reference_accepts` (regex.cc:543-548). -/
def referenceAccepts (s : List Char) (alphabet w : List Int) : Chk Bool := do
  let c ← parse s (insertAll alphabet [])
  let ends ← matchEnds c w 0
  .ok (decide (w.length ∈ ends))

end Gcs.Regex

namespace Gcs.Regular
open IntervalSet Layered

/-- The smallest and the largest value of the variables (regular.cc:553-560). -/
def extremes (d : Doms) : List VarId → Int × Int → Chk (Int × Int)
  | [], r => .ok r
  | v :: vs, r => do
    let xs ← collect (← eachValue d v)
    extremes d vs (xs.foldl (fun r x => (if x < r.1 then x else r.1, if x > r.2 then x else r.2)) r)

/-- What `.` stands for (regular.cc:551-563): everything from the smallest to the largest value. -/
def alphabet (d : Doms) (vars : List VarId) : Chk (List Int) := do
  let r ← extremes d vars (i64Max, i64Min)
  Regex.countUp (r.2 - r.1 + 1).toNat r.1 r.2

/-- `Regular`, given a regular expression (regular.cc:486-490, 551-570), with the default strategy. -/
def installRegex {σ μ : Type} (s : List Char) (st : Store σ) (vars : List VarId) (d : Doms) : Chk (List (Item σ μ)) := do
  let xs ← alphabet d vars
  let nfa ← Regex.toNfa s xs
  install nfa.numStates nfa.transitions nfa.final st vars

end Gcs.Regular
