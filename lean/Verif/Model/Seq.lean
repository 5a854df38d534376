/-!
# Sequence utilities (utils.py, bubble_sort.py)
-/

namespace Wagyu

/-- Python list indexing with wrap-around of negative indices; `none` is `IndexError`. -/
def pyGet {α : Type} (l : List α) (i : Int) : Option α :=
  if 0 ≤ i then l[i.toNat]?
  else if 0 ≤ i + l.length then l[(i + l.length).toNat]?
  else none

/-- Python slice bound `s[i:]` / `s[:i]`: negative indices count from the end, clamped to the list. -/
def pyClamp (n : Nat) (i : Int) : Nat :=
  if 0 ≤ i then min i.toNat n else (i + n).toNat

/-- utils.py:49-52 `rotate_sequence`. -/
def rotateSequence {α : Type} (l : List α) (index : Int) : List α :=
  if 0 < index.natAbs ∧ index.natAbs < l.length then
    l.drop (pyClamp l.length index) ++ l.take (pyClamp l.length index)
  else l

/-- `bisect.bisect_left` on a sorted list: the standard library's binary search, with `fuel` halvings
(utils.py:56; CPython `Lib/bisect.py`: `while lo < hi: mid = (lo + hi) // 2; if a[mid] < x: lo = mid + 1 else: hi = mid`). -/
def bisectLeft (l : List Int) (x : Int) : Nat → Nat → Nat → Nat
  | 0, lo, _ => lo
  | fuel + 1, lo, hi =>
    if lo < hi then
      let mid := (lo + hi) / 2
      if l.getD mid 0 < x then bisectLeft l x fuel (mid + 1) hi
      else bisectLeft l x fuel lo mid
    else lo

/-- utils.py:55-58 `insort_unique` (returns the mutated list). -/
def insortUnique (l : List Int) (v : Int) : List Int :=
  let i := bisectLeft l v l.length 0 l.length
  if i = l.length ∨ v < l.getD i 0 then l.take i ++ v :: l.drop i else l

/-- Python's stable `sorted` for a strict weak order `lt`: stable insertion sort.  Simplification: CPython
uses Timsort, whose result is the same for every strict weak order. -/
def sortedInsert {α : Type} (lt : α → α → Bool) (x : α) : List α → List α
  | [] => [x]
  | y :: ys => if lt y x then y :: sortedInsert lt x ys else x :: y :: ys

/-- `sorted(l)` with `<` given by `lt`. -/
def pySorted {α : Type} (lt : α → α → Bool) (l : List α) : List α := l.foldr (sortedInsert lt) []

/-- `sorted(l, reverse=True)`: stable, descending. -/
def pySortedRev {α : Type} (lt : α → α → Bool) (l : List α) : List α :=
  pySorted (fun a b => lt b a) l

/-- One pass of the `for` loop of bubble_sort.py:12-18 over `a :: l`; returns the new list and the pairs
for which `on_swap` was called, in order. -/
def bubblePass {α : Type} (cmp : α → α → Bool) (a : α) : List α → List α × List (α × α)
  | [] => ([a], [])
  | b :: l =>
    if cmp a b then
      let (r, s) := bubblePass cmp b l
      (a :: r, s)
    else
      let (r, s) := bubblePass cmp a l
      (b :: r, (a, b) :: s)

/-- A pass over a whole list. -/
def bubblePassL {α : Type} (cmp : α → α → Bool) : List α → List α × List (α × α)
  | [] => ([], [])
  | a :: l => bubblePass cmp a l

/-- bubble_sort.py:7-21 `bubble_sort`: the sorted copy together with the calls of `on_swap` in order.
`none` if the `while True` loop has not finished within `fuel` passes. -/
def bubbleSort {α : Type} (cmp : α → α → Bool) : Nat → List α → Option (List α × List (α × α))
  | 0, _ => none
  | fuel + 1, l =>
    let (r, s) := bubblePassL cmp l
    if s.isEmpty then some (r, [])
    else
      match bubbleSort cmp fuel r with
      | none => none
      | some (r', s') => some (r', s ++ s')

/-- The partition loop, utils.py:115-122, run for the `d = pivot_index - index` iterations it makes;
returns the sequence and the final `pivot_index` (= `index`).  -/
def qsPartition {α : Type} [Inhabited α] (cmp : α → α → Bool) (pivot : α) :
    Nat → List α → Nat → α → List α × Nat
  | 0, seq, index, _ => (seq, index)
  | d + 1, seq, index, element =>
    if cmp pivot element then
      qsPartition cmp pivot d seq (index + 1) (seq.getD (index + 1) default)
    else
      let pivotIndex := index + (d + 1)
      let seq := seq.set pivotIndex element
      let element := seq.getD (pivotIndex - 1) default
      let seq := seq.set index element
      qsPartition cmp pivot d seq index element

/-- The `while queue` loop of `quicksort`, utils.py:111-132; the head of `queue` is the end Python pops from.
`none` if it has not finished within `fuel` iterations. -/
def qsLoop {α : Type} [Inhabited α] (cmp : α → α → Bool) :
    Nat → List α → List (Nat × Nat) → Option (List α)
  | _, seq, [] => some seq
  | 0, _, _ :: _ => none
  | fuel + 1, seq, (low, high) :: queue =>
    let pivot := seq.getD high default
    let (seq, p) := qsPartition cmp pivot (high - low) seq low (seq.getD low default)
    let seq := seq.set p pivot
    let lowSize := p - low
    let highSize := high - p
    let queue :=
      if lowSize > highSize then (low, p - 1) :: queue
      else if lowSize > 1 then (low, p - 1) :: (p + 1, high) :: queue
      else queue
    let queue := if highSize > 1 then (p + 1, high) :: queue else queue
    qsLoop cmp fuel seq queue

/-- utils.py:105-132 `quicksort` (returns the mutated sequence). -/
def quicksort {α : Type} [Inhabited α] (cmp : α → α → Bool) (fuel : Nat) (seq : List α) : Option (List α) :=
  if seq.length < 2 then some seq else qsLoop cmp fuel seq [(0, seq.length - 1)]

/-- `[key for key, _ in groupby(l)]` (ring_manager.py:2054): drop consecutive duplicates.
`groupby` compares the element with the key of the current group. -/
def groupKeys {α : Type} [DecidableEq α] : List α → List α
  | [] => []
  | [a] => [a]
  | a :: b :: l => if a = b then groupKeys (a :: l) else a :: groupKeys (b :: l)
  termination_by l => l.length

/-- utils.py:101-102 `is_odd`. -/
def isOdd (n : Nat) : Bool := n % 2 = 1

end Wagyu
