import Verif.Model.LocalMinimum

/-!
# The heap and the monad of the sweep

Python objects with identity (point nodes, rings, bounds) are records in heaps `Nat → record`.  A reference is a
`Nat`, `None` is `none`.  Statements run in `M`, a state monad with exceptions in which the state reached at the
moment of an exception is kept (Python does not roll back).
-/

namespace Wagyu

/-- point_node.py:18-27 the slots of `PointNode`. -/
structure Node where
  x : Int
  y : Int
  prev : Option Nat
  next : Option Nat
  ring : Option Nat
  deriving DecidableEq, Repr, Inhabited

/-- ring.py:17-37 the slots of `Ring`; `index` is the ring's position in the heap (ring_manager.py:656-660). -/
structure Ring where
  parent : Option Nat
  children : List (Option Nat)
  node : Option Nat
  bottomNode : Option Nat
  corrected : Bool
  box : Box
  area : F64
  size : Nat
  isHole : Bool
  deriving DecidableEq, Repr, Inhabited

/-- ring.py:21-37 `Ring(index)`. -/
def Ring.fresh : Ring :=
  { parent := none, children := [], node := none, bottomNode := none, corrected := false,
    box := ⟨⟨0, 0⟩, ⟨0, 0⟩⟩, area := .nan, size := 0, isHole := false }

/-- The state: the three heaps, the attributes of `RingManager` (ring_manager.py:63-84: `children`, `all_nodes`,
`hot_pixels`, `_current_hot_pixel_index`; `rings` is `0, ..., nr - 1`, `index` is `nr`; `nodes` and `storage` are never
read and are omitted), the local lists `scanbeams` and `active_bounds` of the running sweep, and the constant `fuel`
available to every loop. -/
structure St where
  nodes : Nat → Node
  nn : Nat
  rings : Nat → Ring
  nr : Nat
  bounds : Nat → Bound
  children : List (Option Nat)
  hotPixels : List Point
  curHot : Option Nat
  allNodes : List Nat
  scan : List Int
  abl : List (Option Nat)
  fuel : Nat
  deriving Inhabited

/-- The outcome of a computation: a value or an exception, with the state reached. -/
inductive Res (α : Type) where
  | ok (a : α) (s : St)
  | err (e : Err) (s : St)

/-- State monad with exceptions. -/
def M (α : Type) : Type := St → Res α

namespace M

def pure {α : Type} (a : α) : M α := fun s => .ok a s

def bind {α β : Type} (m : M α) (f : α → M β) : M β := fun s =>
  match m s with
  | .ok a s' => f a s'
  | .err e s' => .err e s'

instance : Monad M where
  pure := pure
  bind := bind

end M

/-- `raise`. -/
def raise {α : Type} (e : Err) : M α := fun s => .err e s

/-- Read something of the state. -/
def gets {α : Type} (f : St → α) : M α := fun s => .ok (f s) s

/-- Change the state. -/
def modify (f : St → St) : M Unit := fun s => .ok () (f s)

/-- Lift a pure computation that may raise. -/
def liftE {α : Type} : Except Err α → M α
  | .ok a => fun s => .ok a s
  | .error e => raise e

/-- Dereference something that may be `None`; an attribute of `None` is an `AttributeError`. -/
def deref {α : Type} : Option α → M α
  | some a => fun s => .ok a s
  | none => raise .attribute

/-- A list lookup that may be out of range. -/
def orIndex {α : Type} : Option α → M α
  | some a => fun s => .ok a s
  | none => raise .index

/-- `while True` with at most `n` iterations; the body either goes on (`inl`) or stops with a result (`inr`). -/
def iter {σ β : Type} : Nat → (σ → M (σ ⊕ β)) → σ → M β
  | 0, _, _ => raise .fuel
  | n + 1, f, x => do
    match ← f x with
    | .inl y => iter n f y
    | .inr b => pure b

/-- `while True` with the fuel of the state. -/
def loopM {σ β : Type} (f : σ → M (σ ⊕ β)) (x : σ) : M β := fun s => iter s.fuel f x s

/-- `for _ in range(n): body ... else: fin`: the body either goes on (`inl`) or breaks with a result (`inr`). -/
def forElse {σ β : Type} : Nat → (σ → M (σ ⊕ β)) → (σ → M β) → σ → M β
  | 0, _, fin, x => fin x
  | n + 1, f, fin, x => do
    match ← f x with
    | .inl y => forElse n f fin y
    | .inr b => pure b

/-- `for a in l: body`, for a list that is not changed by the body. -/
def forList {α : Type} : List α → (α → M Unit) → M Unit
  | [], _ => pure ()
  | a :: l, f => do
    f a
    forList l f

/-! ## Attribute access -/

def getNode (i : Nat) : M Node := gets fun s => s.nodes i
def getRing (i : Nat) : M Ring := gets fun s => s.rings i
def getBound (i : Nat) : M Bound := gets fun s => s.bounds i

def modNode (i : Nat) (f : Node → Node) : M Unit :=
  modify fun s => { s with nodes := upd s.nodes i (f (s.nodes i)) }
def modRing (i : Nat) (f : Ring → Ring) : M Unit :=
  modify fun s => { s with rings := upd s.rings i (f (s.rings i)) }
def modBound (i : Nat) (f : Bound → Bound) : M Unit :=
  modify fun s => { s with bounds := upd s.bounds i (f (s.bounds i)) }

def setNext (i : Nat) (v : Option Nat) : M Unit := modNode i fun n => { n with next := v }
def setPrev (i : Nat) (v : Option Nat) : M Unit := modNode i fun n => { n with prev := v }
def setNodeRing (i : Nat) (v : Option Nat) : M Unit := modNode i fun n => { n with ring := v }
def setRingNode (i : Nat) (v : Option Nat) : M Unit := modRing i fun r => { r with node := v }
def setRingParent (i : Nat) (v : Option Nat) : M Unit := modRing i fun r => { r with parent := v }

/-- `node.next` / `node.prev` used as an object. -/
def nextOf (i : Nat) : M Nat := do deref (← getNode i).next
def prevOf (i : Nat) : M Nat := do deref (← getNode i).prev

/-- point_node.py:153-154 `point_node_to_point`. -/
def pointOf (i : Nat) : M Point := do
  let n ← getNode i
  pure ⟨n.x, n.y⟩

/-- `a == b` for two optional nodes (point_node.py:31-34): coordinates are compared; `None` equals only `None`. -/
def nodesEq (a b : Option Nat) : M Bool := do
  match a, b with
  | some i, some j =>
    let p ← pointOf i
    let q ← pointOf j
    pure (decide (p = q))
  | none, none => pure true
  | _, _ => pure false

/-- bound.py:82-84 `current_edge`. -/
def currentEdge (b : Nat) : M Edge := do orIndex (← getBound b).currentEdge?

/-- bound.py:86-88 `next_edge`. -/
def nextEdge (b : Nat) : M Edge := do orIndex (← getBound b).nextEdge?

/-- `active_bounds[i]`. -/
def ablGet (i : Nat) : M (Option Nat) := fun s =>
  match s.abl[i]? with
  | some v => .ok v s
  | none => .err .index s

/-- `active_bounds[i] = v` for an index known to be in range. -/
def ablSet (i : Nat) (v : Option Nat) : M Unit := modify fun s => { s with abl := s.abl.set i v }

/-- `active_bounds[i], active_bounds[j] = active_bounds[j], active_bounds[i]`. -/
def ablSwap (i j : Nat) : M Unit := do
  let a ← ablGet i
  let b ← ablGet j
  ablSet i b
  ablSet j a

/-- `list(filter(partial(is_not, None), active_bounds))`. -/
def ablFilter : M Unit := modify fun s => { s with abl := s.abl.filter Option.isSome }

/-- `insort_unique(scanbeams, y)`. -/
def insertScan (y : Int) : M Unit := modify fun s => { s with scan := insortUnique s.scan y }

/-- `self.hot_pixels.append(p)`. -/
def addHotPixel (p : Point) : M Unit := modify fun s => { s with hotPixels := s.hotPixels ++ [p] }

/-- `self.hot_pixels[i]`. -/
def hotPixelAt (i : Nat) : M Point := fun s =>
  match s.hotPixels[i]? with
  | some p => .ok p s
  | none => .err .index s

/-- utils.py:61-68 `find`: first position of the object itself, or the length. -/
def findIdentity (v : Option Nat) (l : List (Option Nat)) : Nat := l.findIdx (fun x => decide (x = v))

/-- utils.py:94-98 `round_half_up` as a statement. -/
def roundHalfUpM (x : F64) : M Int :=
  match roundHalfUp x with
  | some n => pure n
  | none => raise .arithmetic

end Wagyu
