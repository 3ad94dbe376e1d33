import Verif.Spec.SmartTable
import Verif.Model.Cons.Circuit
import Verif.Model.Cons.MinDistance

/-!
# SmartTable (gcs/constraints/smart_table/smart_table.cc)

The selectors, variables with values 0 and 1 that the constraint allocates for its rows, are modelled as one constraint state, a list that says which of them is not 0. Nothing else can refer to them, they are set to 0 but never to 1,
nothing is woken by them, and like constraint states they are restored on backtracking. The rows are what they are if they are made by the functions of the class (smart_table.hh:92-160), so that an entry for a set is one of `In` and
`NotIn`, and all others are comparisons. Anything that is only for proofs is not modelled.
-/

namespace Gcs.SmartTable

/-- `VariableDomainMap` (smart_table.cc:105). -/
abbrev VMap := VarId → Option (List Int)

def put (m : VMap) (v : VarId) (l : List Int) : VMap := fun w => if w = v then some l else m w

/-- `m[v]`: what is not there is made, as an empty vector. -/
def VMap.at (m : VMap) (v : VarId) : List Int := (m v).getD []

/-- `deview` (smart_table.cc:146-154), and `deview_for_alias_check` (:71-79). -/
def deview : VarId → VarId
  | .view i _ _ => .simple i
  | v => v

/-- `get_for_actual_var` (smart_table.cc:111-128). `vdom[...]` adds an empty vector if there is none; this is not modelled here, since `setFor` does it in the same cases before anything else looks. -/
def getFor (m : VMap) : VarId → Chk (List Int)
  | .const _ => .error .unimplemented
  | .view i neg k => AllDifferent.mapAll (fun x => do iAdd (← iMul (if neg then -1 else 1) x) k) (m.at (.simple i))
  | .simple i => match m (.simple i) with
    | some l => .ok l
    | none => .error .ub

/-- `set_for_actual_var` (smart_table.cc:130-144). For a view, the vector that is stored has the size of the old one, and the rest of it is 0. -/
def setFor (m : VMap) (l : List Int) : VarId → Chk VMap
  | .const _ => .error .unimplemented
  | .view i neg k => do
    let l' ← AllDifferent.mapAll (fun x => do iMul (if neg then -1 else 1) (← iSub x k)) l
    if (m.at (.simple i)).length < l.length then .error .ub
    else return put m (.simple i) (l' ++ List.replicate ((m.at (.simple i)).length - l.length) 0)
  | .simple i => match m (.simple i) with
    | some _ => .ok (put m (.simple i) l)
    | none => .error .ub

/-- `sort`. -/
def insert (x : Int) : List Int → List Int
  | [] => [x]
  | y :: ys => if x ≤ y then x :: y :: ys else y :: insert x ys

def sort : List Int → List Int
  | [] => []
  | x :: xs => insert x (sort xs)

/-- `set_intersection` of sorted vectors: what occurs `m` times in the first and `n` times in the second is there as often as the smaller of these says. -/
def inter : List Int → List Int → List Int
  | [], _ => []
  | x :: xs, l => if x ∈ l then x :: inter xs (l.erase x) else inter xs l

/-- `set_difference` of sorted vectors: what occurs `m` times in the first and `n` times in the second is there `m - n` times, if `n` is smaller. -/
def diff : List Int → List Int → List Int
  | [], _ => []
  | x :: xs, l => if x ∈ l then diff xs (l.erase x) else x :: diff xs l

/-- Those that are in the relation to the first of `l`, `l[0]`. -/
def vsFirst (r : Rel) (l l' : List Int) : Chk (List Int) := Disjunctive2D.keep (fun v => do return decide (r.holds v (← vecAt l 0))) l'

/-- Those that are in the relation to the last of `l`, `l[l.size() - 1]`. -/
def vsLast (r : Rel) (l l' : List Int) : Chk (List Int) := Disjunctive2D.keep (fun v => do return decide (r.holds v (← vecAt l (l.length - 1)))) l'

/-- The `switch` for two variables (smart_table.cc:182-280), for sorted `l1` and `l2`. -/
def narrow (l1 l2 : List Int) : Rel → Chk (List Int × List Int)
  | .lt => do return (← vsLast .lt l2 l1, ← vsFirst .gt l1 l2)
  | .le => do return (← vsLast .le l2 l1, ← vsFirst .ge l1 l2)
  | .eq => .ok (inter l1 l2, inter l1 l2)
  | .ne =>
    if l1.length = 1 then .ok (l1, diff l2 l1)
    else if l2.length = 1 then .ok (diff l1 l2, l2)
    else .ok (l1, l2)
  | .gt => do return (← vsFirst .gt l2 l1, ← vsLast .lt l1 l2)
  | .ge => do return (← vsFirst .ge l2 l1, ← vsLast .le l1 l2)

/-- `filter_edge` (smart_table.cc:167-321). -/
def filter (m : VMap) : SmartEntry → Chk VMap
  | .binary x y r => do
    let l1 ← getFor m x
    let l2 ← getFor m y
    let n ← narrow (sort l1) (sort l2) r
    let m' ← setFor m n.1 x
    setFor m' n.2 y
  | .value x v r => do
    let l ← getFor m x
    setFor m ((sort l).filter fun w => decide (r.holds w v)) x
  | .set x vs member => do
    let l ← getFor m x
    setFor m (if member then inter (sort l) (sort vs) else diff (sort l) (sort vs)) x

/-- `domain_became_empty` (smart_table.cc:331-348). -/
def emptied (m : VMap) (e : SmartEntry) : Chk Bool := anyOf (fun x => do return decide ((← getFor m x) = [])) e.vars

/-- `filter_and_check_valid` (smart_table.cc:323-356), for the entries of a tree in the order in which they are gone through. -/
def check : List SmartEntry → VMap → Chk (Option VMap)
  | [], m => .ok (some m)
  | e :: es, m => do
    let m' ← filter m e
    if ← emptied m' e then return none else check es m'

/-- `remove_supported` (smart_table.cc:358-366). -/
def support (u : VMap) (x : VarId) (l : List Int) : VMap :=
  put u x (((u.at x).foldl (fun s v => MinDistance.insertSorted v s) []).filter fun v => decide (v ∉ l))

/-- smart_table.cc:375-392, for some of the variables in an entry. -/
def supportAll (m : VMap) : List VarId → VMap → Chk VMap
  | [], u => .ok u
  | x :: xs, u => do supportAll m xs (support u x (← getFor m x))

/-- `filter_again_and_remove_supported` (smart_table.cc:368-395). -/
def again : List SmartEntry → VMap → VMap → Chk VMap
  | [], _, u => .ok u
  | e :: es, m, u => do
    let m' ← filter m e
    again es m' (← supportAll m' e.vars u)

/-- While a tree is built: the entries so far with their levels, and which variables have been visited. `entry_tree[l]` is what has level `l` here. -/
structure Build where
  tree : List (Nat × SmartEntry)
  visited : List VarId

/-- `adjacent_edges[v]` (smart_table.cc:579-597). -/
def adjacent (es : List SmartEntry) (v : VarId) : List SmartEntry := es.filter fun e => decide (v ∈ e.vars.map deview)

/-- The loop in `build_tree` (smart_table.cc:550-569), with the recursive call as a parameter. -/
def grow (visit : VarId → Nat → Build → Chk Build) (l : Nat) : List SmartEntry → Build → Chk Build
  | [], b => .ok b
  | .binary x y r :: es, b =>
    if deview x ∉ b.visited then do
      let b' ← visit x (l + 1) { b with tree := b.tree ++ [(l, .binary x y r)] }
      grow visit l es b'
    else if deview y ∉ b.visited then do
      let b' ← visit y (l + 1) { b with tree := b.tree ++ [(l, .binary x y r)] }
      grow visit l es b'
    else grow visit l es b
  | e :: es, b => grow visit l es { b with tree := b.tree ++ [(l, e)] }

/-- `build_tree` (smart_table.cc:542-570). There are never more than `fuel` calls inside each other. -/
def build (es : List SmartEntry) : Nat → VarId → Nat → Build → Chk Build
  | 0, _, _, _ => .error .diverge
  | fuel + 1, v, l, b => grow (build es fuel) l (adjacent es (deview v)) { b with visited := deview v :: b.visited }

/-- The entries of a tree, the deepest level first (smart_table.cc:326-327 and :371-372). There is one level, and one more for each entry with two variables (:555, :561 and :607). -/
def walk (t : List (Nat × SmartEntry)) : List SmartEntry :=
  (List.range (t.countP (fun q => decide (q.2.vars.length = 2)) + 1)).reverse.flatMap fun l => (t.filter fun q => decide (q.1 = l)).map (·.2)

/-- The forest of a row (smart_table.cc:600-611), where `vs` are the variables of the row in the order in which an `unordered_map` has them. -/
def forest (es : List SmartEntry) : List VarId → List VarId → Chk (List (List SmartEntry))
  | [], _ => .ok []
  | v :: vs, visited =>
    if v ∈ visited then forest es vs visited
    else do
      let b ← build es ((es.flatMap SmartEntry.vars).length + 1) v 0 ⟨[], visited⟩
      return walk b.tree :: (← forest es vs b.visited)

/-- The values of variables now (smart_table.cc:424-430 and :446-450). -/
def domains (d : Doms) : List VarId → VMap → Chk VMap
  | [], m => .ok m
  | v :: vs, m => do
    let l ← collect (← eachValue d v)
    domains d vs (if l = [] then m else put m v (m.at v ++ l))

/-- The trees of a row (smart_table.cc:444-460): whether the row is still possible, and what has no support yet. -/
def tryTrees (full : VMap) : List (List SmartEntry) → VMap → Chk (Bool × VMap)
  | [], u => .ok (true, u)
  | t :: ts, u => do
    match ← check t full with
    | none => return (false, u)
    | some m => tryTrees full ts (← again t m u)

/-- `get_unrestricted` (smart_table.cc:397-418) and what is done with it (:462-467). -/
def free (vars : List VarId) (es : List SmartEntry) (u : VMap) : VMap := fun x => if x ∈ vars ∧ x ∉ es.flatMap SmartEntry.vars then some [] else u x

/-- The loop over rows (smart_table.cc:434-468), for each of which there is its selector and its forest. -/
def tryRows (full : VMap) (vars : List VarId) : List (Bool × List SmartEntry × List (List SmartEntry)) → VMap → Chk (List Bool × VMap)
  | [], u => .ok ([], u)
  | (false, _, _) :: rows, u => do
    let r ← tryRows full vars rows u
    return (false :: r.1, r.2)
  | (true, es, ts) :: rows, u => do
    let r ← tryTrees full ts u
    let q ← tryRows full vars rows (if r.1 then free vars es r.2 else r.2)
    return (r.1 :: q.1, q.2)

section
variable {σ μ : Type}

/-- `propagate_using_smart_str` (smart_table.cc:420-540). Selectors become 0 as soon as this is found out in the code, and here afterwards. -/
def propagate (B : Kind σ (List Bool)) (h : Nat) (vars : List VarId) (rows : List (List SmartEntry × List (List SmartEntry))) : Prog σ μ PState := Circuit.stored B h fun sel => do
  let r ← Prog.ask fun d => do
    let full ← domains d vars fun _ => none
    tryRows full vars (sel.zip rows) full
  .setState h (B.put r.1) (do
    if ∀ b ∈ r.1, b = false then Prog.fail
    else Prog.forEach (fun x => Prog.forEach (fun v => Prog.tell (.cond (Cond.ne x v))) (r.2.at x)) vars
    return .enable)

/-- The check in the constructor (smart_table.cc:94-99). -/
def aliased : SmartEntry → Bool
  | .binary x y _ => decide (deview x = deview y)
  | _ => false

/-- `SmartTable` (smart_table.cc:82-100, :572-616, :779-786 and :868-887), where `order i` are the variables of row number `i`, without views, in the order in which an `unordered_map` has them. -/
def install (B : Kind σ (List Bool)) (h : Nat) (order : Nat → List VarId) (vars : List VarId) (rows : List (List SmartEntry)) (_ : Doms) : Chk (List (Item σ μ)) :=
  if ∃ es ∈ rows, ∃ e ∈ es, aliased e = true then .error .invalidProblem
  else do
    let fs ← AllDifferent.mapAll (fun p => do return (p.1, ← forest p.1 (order p.2) [])) rows.zipIdx
    return [.prop (propagate B h vars fs) { onChange := vars }]

/-- The rows of `LexSmartTable` (gcs/constraints/lex/lex_smart_table.cc:49-60). -/
def lexRows (xs ys : List VarId) : List (List SmartEntry) :=
  (List.range (xs.zip ys).length).map fun i => (((xs.zip ys).take i).map fun p => .binary p.1 p.2 .eq) ++ (((xs.zip ys).drop i).take 1).map fun p => .binary p.1 p.2 .gt

/-- `LexSmartTable` (gcs/constraints/lex/lex_smart_table.cc:45-69). -/
def installLex (B : Kind σ (List Bool)) (h : Nat) (order : Nat → List VarId) (xs ys : List VarId) : Doms → Chk (List (Item σ μ)) := install B h order (xs ++ ys) (lexRows xs ys)

/-- The rows of `AtMostOneSmartTable` (gcs/constraints/at_most_one/at_most_one.cc:181-190). -/
def atMostRows (vars : List VarId) (val : VarId) : List (List SmartEntry) := (List.range vars.length).map fun i => (vars.eraseIdx i).map fun x => .binary x val .ne

/-- `AtMostOneSmartTable` (gcs/constraints/at_most_one/at_most_one.cc:168-198). -/
def installAtMost (B : Kind σ (List Bool)) (h : Nat) (order : Nat → List VarId) (vars : List VarId) (val : VarId) (root : Doms) : Chk (List (Item σ μ)) :=
  if vars.length < 2 then .ok [] else install B h order (vars ++ [val]) (atMostRows vars val) root

end
end Gcs.SmartTable
