/-
Model of /repo/src/dlproofs/constraints.cpp and of the inline functions of
/repo/include/constraints.hpp.

`std::map`/`std::set` are lists with strictly increasing keys (see
`Spec.Sorted`); a (forward) iterator is the suffix of the list that starts at the
element it points to, the end iterator is `[]`.
-/
import Verif.Model.ConstraintTypes
import Mathlib.Algebra.Field.Defs

namespace Verif

/-! ### `std::map<size_t,T>` and `std::set<size_t>` (C++ standard library, not in /repo) -/

/-- `std::map::insert(pair)`, also with a hint: nothing happens if the key exists. -/
def mapInsert {T : Type} : List (Nat × T) → Nat × T → List (Nat × T)
  | [], kv => [kv]
  | p :: m, kv =>
    if kv.1 < p.1 then kv :: p :: m
    else if kv.1 = p.1 then p :: m
    else p :: mapInsert m kv

/-- `std::map::insert(first,last)`. -/
def mapInsertAll {T : Type} (m : List (Nat × T)) (kvs : List (Nat × T)) : List (Nat × T) :=
  kvs.foldl mapInsert m

/-- `std::map::find(k)`: `none` is the end iterator. -/
def mapFind {T : Type} : List (Nat × T) → Nat → Option T
  | [], _ => none
  | p :: m, k => if p.1 = k then some p.2 else mapFind m k

/-- `std::set::insert(k)`, also with a hint. -/
def setInsert : List Nat → Nat → List Nat
  | [], k => [k]
  | p :: m, k =>
    if k < p then k :: p :: m
    else if k = p then p :: m
    else p :: setInsert m k

/-- `std::set::insert(first,last)`. -/
def setInsertAll (m : List Nat) (ks : List Nat) : List Nat := ks.foldl setInsert m

section
variable {F : Type} [Field F] [DecidableEq F]

/-- `innerProduct(PtxtVec,PtxtVec)`, constraints.cpp:54-67.  The accumulator `sum` is an
argument of the loop. -/
def innerProductMapLoop : PtxtVec F → PtxtVec F → F → F
  | [], _, sum => sum
  | _ :: _, [], sum => sum
  | p :: v1, q :: v2, sum =>
    if p.1 < q.1 then innerProductMapLoop v1 (q :: v2) sum
    else if q.1 < p.1 then innerProductMapLoop (p :: v1) v2 sum
    else innerProductMapLoop v1 v2 (sum + p.2 * q.2)
termination_by v1 v2 => v1.length + v2.length

/-- `innerProduct(PtxtVec,PtxtVec)`, constraints.cpp:54-67. -/
def innerProductMap (v1 v2 : PtxtVec F) : F := innerProductMapLoop v1 v2 0

/-! ### LinConstraint::merge, constraints.cpp:79-151 -/

/-- `CompIter`, constraints.cpp:34-40: constraint number, element pointed to, and the
rest of that constraint's terms (only dereferenceable iterators are ever queued). -/
structure CompIter (F : Type) where
  cIdx : Nat
  head : Nat × F
  rest : List (Nat × F)

/-- The smallest key at the front of the queue. -/
def minKey (e : CompIter F) (q : List (CompIter F)) : Nat :=
  q.foldl (fun m d => min m d.head.1) e.head.1

/-- `std::priority_queue<CompIter>::top()` together with `pop()`: one of the elements
with the smallest key (the comparison is reversed, constraints.cpp:43-45) and the queue
without it.  Which one of several equal elements is on top is not specified by the
standard: `tie` stands for the library's choice. -/
def popTop (tie : List (CompIter F) → Nat) (e : CompIter F) (q : List (CompIter F)) :
    CompIter F × List (CompIter F) :=
  let all := e :: q
  let cands := (List.range all.length).filter fun i =>
    (all[i]?.map fun d => d.head.1) = some (minKey e q)
  let i := cands.getD (tie all % cands.length) 0
  (all.getD i e, all.eraseIdx i)

/-- total number of unprocessed terms in the queue (termination measure) -/
def queueSize (q : List (CompIter F)) : Nat := (q.map fun d => d.rest.length + 1).sum

/-- `toPush.it++; if (toPush.it != end) current.push(toPush);`, constraints.cpp:131-137. -/
def pushNext (d : CompIter F) (q : List (CompIter F)) : List (CompIter F) :=
  match d.rest with
  | [] => q
  | h :: t => { cIdx := d.cIdx, head := h, rest := t } :: q

omit [Field F] [DecidableEq F] in
theorem getElem_mem_filter_minKey (e : CompIter F) (q : List (CompIter F)) :
    ∃ i, i < (e :: q).length ∧
      ((e :: q)[i]?.map fun d => d.head.1) = some (minKey e q) := by
  have gen : ∀ (q : List (CompIter F)) (m : Nat),
      q.foldl (fun m d => min m d.head.1) m = m ∨
      ∃ i, i < q.length ∧ (q[i]?.map fun d => d.head.1)
        = some (q.foldl (fun m d => min m d.head.1) m) := by
    intro q
    induction q with
    | nil => intro m; left; rfl
    | cons d q ih =>
      intro m
      simp only [List.foldl_cons]
      rcases ih (min m d.head.1) with h | ⟨i, hi, h⟩
      · rw [h]
        rcases Nat.le_total m d.head.1 with hm | hm
        · left; exact Nat.min_eq_left hm
        · right; exact ⟨0, by simp, by simp [Nat.min_eq_right hm]⟩
      · right; exact ⟨i + 1, by simp; omega, by simpa using h⟩
  rcases gen q e.head.1 with h | ⟨i, hi, h⟩
  · exact ⟨0, by simp, by simp [minKey, h]⟩
  · exact ⟨i + 1, by simp; omega, by simpa [minKey] using h⟩

omit [Field F] [DecidableEq F] in
/-- The element that is popped really is in the queue, at some position `i`, and has the
smallest key. -/
theorem popTop_spec (tie : List (CompIter F) → Nat) (e : CompIter F) (q : List (CompIter F)) :
    ∃ i, ∃ h : i < (e :: q).length, popTop tie e q = ((e :: q)[i], (e :: q).eraseIdx i) ∧
      ((e :: q)[i]).head.1 = minKey e q := by
  obtain ⟨j, hj, hj2⟩ := getElem_mem_filter_minKey e q
  have hlen : 0 < ((List.range (e :: q).length).filter fun i =>
      ((e :: q)[i]?.map fun d => d.head.1) = some (minKey e q)).length := by
    apply List.length_pos_of_mem (a := j)
    rw [List.mem_filter]
    exact ⟨List.mem_range.2 hj, by simpa using hj2⟩
  obtain ⟨c, hc⟩ : ∃ c, c = (List.range (e :: q).length).filter fun i =>
      ((e :: q)[i]?.map fun d => d.head.1) = some (minKey e q) := ⟨_, rfl⟩
  have hk : tie (e :: q) % c.length < c.length := Nat.mod_lt _ (by rw [hc]; exact hlen)
  have hmem : c[tie (e :: q) % c.length] ∈ c := List.getElem_mem hk
  have hm2 : ∀ x ∈ c, x < (e :: q).length ∧
      ((e :: q)[x]?.map fun d => d.head.1) = some (minKey e q) := by
    intro x hx
    rw [hc] at hx
    simpa only [List.mem_filter, List.mem_range, decide_eq_true_eq] using hx
  replace hm2 := hm2 _ hmem
  have hcd : c.getD (tie (e :: q) % c.length) 0 = c[tie (e :: q) % c.length] := by
    simp [List.getD_eq_getElem?_getD, hk]
  have hb : c[tie (e :: q) % c.length] < (e :: q).length := hm2.1
  refine ⟨c[tie (e :: q) % c.length], hb, ?_, ?_⟩
  · simp only [popTop, ← hc, hcd, List.getD_eq_getElem?_getD, List.getElem?_eq_getElem hb,
      Option.getD_some]
  · have h3 := hm2.2
    simp only [List.getElem?_eq_getElem hb, Option.map_some, Option.some.injEq] at h3
    exact h3

omit [Field F] [DecidableEq F] in
theorem queueSize_eraseIdx (q : List (CompIter F)) (i : Nat) (h : i < q.length) :
    queueSize (q.eraseIdx i) + q[i].rest.length + 1 = queueSize q := by
  induction q generalizing i with
  | nil => simp at h
  | cons d q ih =>
    cases i with
    | zero => simp [queueSize]; omega
    | succ i =>
      have := ih i (by simpa using h)
      simp only [queueSize, List.eraseIdx_cons_succ, List.map_cons, List.sum_cons,
        List.getElem_cons_succ] at this ⊢
      omega

omit [Field F] [DecidableEq F] in
theorem queueSize_pushNext (d : CompIter F) (q : List (CompIter F)) :
    queueSize (pushNext d q) = queueSize q + d.rest.length := by
  unfold pushNext
  split
  · next h => simp [h]
  · next h => simp [h, queueSize]; omega

omit [Field F] [DecidableEq F] in
theorem popTop_size (tie : List (CompIter F) → Nat) (e : CompIter F) (q : List (CompIter F)) :
    queueSize (pushNext (popTop tie e q).1 (popTop tie e q).2) < queueSize (e :: q) := by
  obtain ⟨i, hi, h, -⟩ := popTop_spec tie e q
  rw [h, queueSize_pushNext]
  have := queueSize_eraseIdx (e :: q) i hi
  simp only at this ⊢
  omega

/-- The `while (!current.empty())` loop of `LinConstraint::merge`, constraints.cpp:106-138,
followed by the final insertion, constraints.cpp:140.  `curTerm` and `terms` are loop state. -/
def mergeLoop (coeffs : List F) (tie : List (CompIter F) → Nat) :
    List (CompIter F) → Nat × F → PtxtVec F → Res (PtxtVec F)
  | [], curTerm, terms => .ok (mapInsert terms curTerm)
  | e :: q, curTerm, terms =>
    let d := (popTop tie e q).1
    match rd coeffs d.cIdx with
    | .ok coeff =>
      if d.head.1 = curTerm.1 then
        mergeLoop coeffs tie (pushNext d (popTop tie e q).2)
          (curTerm.1, curTerm.2 + d.head.2 * coeff) terms
      else
        let terms' := if curTerm.2 ≠ 0 then mapInsert terms curTerm else terms
        mergeLoop coeffs tie (pushNext d (popTop tie e q).2)
          (d.head.1, d.head.2 * coeff) terms'
    | .throw => .throw
    | .ub => .ub
termination_by q => queueSize q
decreasing_by all_goals exact popTop_size tie e q

/-- Initial queue, constraints.cpp:97-102: the constraints with at least one term and a
non-zero coefficient. -/
def mergeQueue (coeffs : List F) : List (LinConstraint F) → Nat → Res (List (CompIter F))
  | [], _ => .ok []
  | c :: cs, i => do
    let x ← rd coeffs i
    let q ← mergeQueue coeffs cs (i + 1)
    match c.terms with
    | [] => pure q
    | h :: t => if x = 0 then pure q else pure ({ cIdx := i, head := h, rest := t } :: q)

/-- The loop for `equalsTo`, constraints.cpp:142-150. -/
def mergeEq (coeffs : List F) : List (LinConstraint F) → Nat → F → Res F
  | [], _, acc => .ok acc
  | c :: cs, i, acc => do
    let x ← rd coeffs i
    if c.terms.length > 0 ∧ x ≠ 0 then mergeEq coeffs cs (i + 1) (acc + c.equalsTo * x)
    else mergeEq coeffs cs (i + 1) acc

/-- `LinConstraint::merge`, constraints.cpp:79-151.  The old value of the object is
overwritten, so the function returns the new object. -/
def LinConstraint.merge (tie : List (CompIter F) → Nat)
    (constraints : List (LinConstraint F)) (coeffs : List F) : Res (LinConstraint F) :=
  if constraints.length ≠ coeffs.length then .throw
  else do
    let q ← mergeQueue coeffs constraints 0
    match q with
    | [] => pure ⟨[], 0⟩
    | e :: q' =>
      let terms ← mergeLoop coeffs tie (e :: q') ((popTop tie e q').1.head.1, 0) []
      let eq ← mergeEq coeffs constraints 0 0
      pure ⟨terms, eq⟩

/-- `QuadConstraint::merge`, constraints.cpp:153-168: the loop body for `i ≥ ` the current
position; the size check makes the accesses in bounds, so the two vectors are walked in
parallel. -/
def quadMergeLoop : List (QuadConstraint F) → List F → QuadConstraint F → QuadConstraint F
  | c :: cs, x :: xs, acc =>
    quadMergeLoop cs xs
      ⟨setInsertAll acc.indexes c.indexes, acc.equalsTo + c.equalsTo * x * x⟩
  | _, _, acc => acc

/-- `QuadConstraint::merge`, constraints.cpp:153-168. -/
def QuadConstraint.merge (constraints : List (QuadConstraint F)) (coeffs : List F) :
    Res (QuadConstraint F) :=
  if constraints.length ≠ coeffs.length then .throw
  else .ok (quadMergeLoop constraints coeffs ⟨[], 0⟩)

/-- `setDifference`, constraints.cpp:171-186: on the terms of the first constraint. -/
def setDifference : PtxtVec F → List Nat → PtxtVec F
  | [], _ => []
  | p :: m, [] => p :: m
  | p :: m, k :: ks =>
    if p.1 < k then p :: setDifference m (k :: ks)
    else if k < p.1 then setDifference (p :: m) ks
    else setDifference m ks
termination_by m ks => m.length + ks.length

/-- The `while` loop of `splitPtxtVec`, constraints.cpp:207-223, with the insertion of the
remaining elements. -/
def splitLoop : PtxtVec F → List Nat → PtxtVec F → PtxtVec F → PtxtVec F × PtxtVec F
  | [], _, inter, diff => (inter, diff)
  | p :: src, [], inter, diff => (inter, mapInsertAll diff (p :: src))
  | p :: src, k :: by_, inter, diff =>
    if p.1 < k then splitLoop src (k :: by_) inter (mapInsert diff p)
    else if k < p.1 then splitLoop (p :: src) by_ inter diff
    else splitLoop src by_ (mapInsert inter p) diff
termination_by src by_ => src.length + by_.length

/-- `size_t` is 64 bits wide: unsigned arithmetic wraps around. -/
def sizeMod : Nat := 2 ^ 64

/-- `splitPtxtVec`, constraints.cpp:191-226: (intersection, setDiff, returned index). -/
def splitPtxtVec (src : PtxtVec F) (splitBy : List Nat) : PtxtVec F × PtxtVec F × Nat :=
  match src.getLast?, splitBy.getLast? with
  | none, none => ([], [], 1)
  | none, some k => ([], [], (1 + k) % sizeMod)
  | some p, none => ([], src, (1 + p.1) % sizeMod)
  | some p, some k =>
    let r := splitLoop src splitBy [] []
    (r.1, r.2, (max p.1 k + 1) % sizeMod)

/-- Conversion of a `size_t` to a 32-bit `int`: modulo 2^32 (two's complement). -/
def toInt32 (k : Nat) : Int :=
  let m : Nat := k % 2 ^ 32
  if m < 2 ^ 31 then (m : Int) else (m : Int) - 2 ^ 32

/-- `largestKey(LinConstraint)`, constraints.hpp:165-167. -/
def largestKeyLin (c : LinConstraint F) : Int :=
  match c.terms.getLast? with
  | none => -1
  | some p => toInt32 p.1

/-- `largestKey(QuadConstraint)`, constraints.hpp:168-170. -/
def largestKeyQuad (c : QuadConstraint F) : Int :=
  match c.indexes.getLast? with
  | none => -1
  | some k => toInt32 k

/-- `makeAlmostDisjoint`, constraints.cpp:232-249: new linear constraint, new quadratic
constraint, index of the new variable.  `std::max(int,int)+1` overflows (undefined
behaviour) at `INT_MAX`; a negative `int` converted to `size_t` wraps around. -/
def makeAlmostDisjoint (lin : LinConstraint F) (quad : QuadConstraint F) (s : F) :
    Res (LinConstraint F × QuadConstraint F × Nat) :=
  let quadEq := quad.equalsTo - lin.equalsTo * s
  let lin1 : LinConstraint F := ⟨setDifference lin.terms quad.indexes, 0⟩
  let big := max (largestKeyLin lin1) (largestKeyQuad quad)
  if big = 2 ^ 31 - 1 then .ub
  else
    let newKey := ((big + 1) % 2 ^ 64).toNat
    .ok (⟨mapInsert lin1.terms (newKey, 1), 0⟩, ⟨setInsert quad.indexes newKey, quadEq⟩, newKey)

/-- `LinConstraint::addTerm`, constraints.cpp:251-255 (`terms[idx]` inserts a zero scalar if
the index is new). -/
def addToKey : PtxtVec F → Nat → F → PtxtVec F
  | [], i, s => [(i, 0 + s)]
  | p :: m, i, s =>
    if i < p.1 then (i, 0 + s) :: p :: m
    else if i = p.1 then (p.1, p.2 + s) :: m
    else p :: addToKey m i s

/-- `LinConstraint::addTerm`, constraints.cpp:251-255. -/
def LinConstraint.addTerm (c : LinConstraint F) (i : Nat) (s : F) : LinConstraint F :=
  { c with terms := addToKey c.terms i s }

/-- `QuadConstraint::addIdx`, constraints.hpp:141-147. -/
def QuadConstraint.addIdx (c : QuadConstraint F) (i : Nat) : Res (QuadConstraint F) :=
  if i ∈ c.indexes then .throw else .ok { c with indexes := setInsert c.indexes i }

/-- The disjointness loop of `QuadConstraint::operator+=`, constraints.cpp:267-274.  The
second test is `it2 != indexes.end()` instead of `other.indexes.end()`: an iterator into
`other` is never equal to the end of `indexes` (comparing iterators of two containers is
itself undefined in the standard; here it is just "not equal"), so at the end of `other`
the loop goes on and `*it2` reads past the end. -/
def addAssignLoop : List Nat → List Nat → Res Unit
  | [], _ => .ok ()
  | _ :: _, [] => .ub
  | a :: it1, b :: it2 =>
    if a < b then addAssignLoop it1 (b :: it2)
    else if b < a then addAssignLoop (a :: it1) it2
    else .throw
termination_by it1 it2 => it1.length + it2.length

/-- `QuadConstraint::operator+=`, constraints.cpp:258-280. -/
def QuadConstraint.addAssign (c other : QuadConstraint F) : Res (QuadConstraint F) :=
  match other.indexes.head?, other.indexes.getLast?, c.indexes.head?, c.indexes.getLast? with
  | some of, some ol, some f, some l => do
    if f ≤ ol ∧ l ≥ of then addAssignLoop c.indexes other.indexes
    pure ⟨setInsertAll c.indexes other.indexes, c.equalsTo + other.equalsTo⟩
  | none, _, _, _ => pure c
  | _, none, _, _ => pure c
  | _, _, _, _ => pure other

/-- loop of `checkConstraint(LinConstraint,..)`, constraints.cpp:319-333. -/
def checkLinLoop : PtxtVec F → PtxtVec F → F → Option F
  | p :: t, q :: w, sum => if p.1 ≠ q.1 then none else checkLinLoop t w (sum + p.2 * q.2)
  | [], [], sum => some sum
  | _, _, _ => none

/-- `checkConstraint(LinConstraint,..)`, constraints.cpp:319-333. -/
def checkLin (c : LinConstraint F) (w : PtxtVec F) : Bool :=
  match checkLinLoop c.terms w 0 with
  | some sum => sum = c.equalsTo
  | none => false

/-- loop of `checkConstraintLoose(LinConstraint,..)`, constraints.cpp:336-351. -/
def checkLinLooseLoop (w : PtxtVec F) : PtxtVec F → F → Option F
  | [], sum => some sum
  | p :: t, sum =>
    if p.2 ≠ 0 then
      match mapFind w p.1 with
      | none => none
      | some x => checkLinLooseLoop w t (sum + p.2 * x)
    else checkLinLooseLoop w t sum

/-- `checkConstraintLoose(LinConstraint,..)`, constraints.cpp:336-351 (the debugging global
`dbgSum` is not modelled). -/
def checkLinLoose (c : LinConstraint F) (w : PtxtVec F) : Bool :=
  match checkLinLooseLoop w c.terms 0 with
  | some sum => sum = c.equalsTo
  | none => false

/-- loop of `checkConstraint(QuadConstraint,..)`, constraints.cpp:354-369. -/
def checkQuadLoop : List Nat → PtxtVec F → PtxtVec F → F → Option F
  | i :: is, x :: xs, y :: ys, sum =>
    if i ≠ x.1 ∨ i ≠ y.1 then none else checkQuadLoop is xs ys (sum + x.2 * y.2)
  | [], [], [], sum => some sum
  | _, _, _, _ => none

/-- `checkConstraint(QuadConstraint,..)`, constraints.cpp:354-369. -/
def checkQuad (c : QuadConstraint F) (xs ys : PtxtVec F) : Bool :=
  match checkQuadLoop c.indexes xs ys 0 with
  | some sum => sum = c.equalsTo
  | none => false

/-- loop of `checkConstraintLoose(QuadConstraint,..)`, constraints.cpp:372-387. -/
def checkQuadLooseLoop (xs ys : PtxtVec F) : List Nat → F → Option F
  | [], sum => some sum
  | i :: is, sum =>
    match mapFind xs i, mapFind ys i with
    | some x, some y => checkQuadLooseLoop xs ys is (sum + x * y)
    | _, _ => none

/-- `checkConstraintLoose(QuadConstraint,..)`, constraints.cpp:372-387. -/
def checkQuadLoose (c : QuadConstraint F) (xs ys : PtxtVec F) : Bool :=
  match checkQuadLooseLoop xs ys c.indexes 0 with
  | some sum => sum = c.equalsTo
  | none => false

end

end Verif
