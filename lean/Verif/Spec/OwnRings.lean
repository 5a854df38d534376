import Verif.Spec.Cycles

/-!
# Specification: point nodes distributed over rings
-/

namespace Wagyu.Spec

/-- The point nodes `0, ..., n - 1` are distributed over the rings `0, ..., m - 1`: the nodes `lists r` of the ring `r`, in
this order, form a circular doubly linked list that starts at the node recorded as the first one of the ring (a ring without
nodes records none), every one of them records `r` as its ring, and every node is in one of the lists.  (So no node is in
two lists.) -/
structure Distributed (nodes : Nat → Node) (n : Nat) (first : Nat → Option Nat) (m : Nat) (lists : Nat → List Nat) : Prop where
  head : ∀ r, first r = (lists r).head?
  cycle : ∀ r, lists r ≠ [] → r < m ∧ IsCycle nodes (lists r)
  own : ∀ r, ∀ i ∈ lists r, i < n ∧ (nodes i).ring = some r
  all : ∀ i < n, ∃ r, i ∈ lists r

/-- The same when point nodes may have been discarded: the nodes that record a ring are in the list of that ring. -/
structure Owned (nodes : Nat → Node) (n : Nat) (first : Nat → Option Nat) (m : Nat) (lists : Nat → List Nat) : Prop where
  head : ∀ r, first r = (lists r).head?
  cycle : ∀ r, lists r ≠ [] → r < m ∧ IsCycle nodes (lists r)
  own : ∀ r, ∀ i ∈ lists r, i < n ∧ (nodes i).ring = some r
  kept : ∀ i < n, ∀ r, (nodes i).ring = some r → i ∈ lists r

/-- `a` is a proper ancestor of `r`. -/
inductive Ancestor (parent : Nat → Option Nat) : Nat → Nat → Prop
  | parent {r a : Nat} (h : parent r = some a) : Ancestor parent r a
  | further {r p a : Nat} (h : parent r = some p) (ha : Ancestor parent p a) : Ancestor parent r a

end Wagyu.Spec
