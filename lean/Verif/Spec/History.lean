import Verif.Model.Wagyu

/-!
# Specification: histories of calls on a `Wagyu` object
-/

namespace Wagyu

/-- What a client can do. -/
inductive Call where
  | addLinearRing (ring : LinearRing) (kind : PolygonKind)
  | addPolygon (polygon : Polygon) (kind : PolygonKind)
  | clear
  | execute (op : OperationKind) (sf cf : FillKind)

/-- What a client sees. -/
inductive Reply where
  | added (r : Except Err Bool)
  | cleared
  | result (r : Except Err Multipolygon)

/-- One call. -/
def Wagyu.call (fuel : Nat) (w : Wagyu) : Call → Wagyu × Reply
  | .addLinearRing ring kind => let (w, r) := w.addLinearRing fuel ring kind; (w, .added r)
  | .addPolygon polygon kind => let (w, r) := w.addPolygon fuel polygon kind; (w, .added r)
  | .clear => (w.clear, .cleared)
  | .execute op sf cf => let (w, r) := w.execute fuel op sf cf; (w, .result r)

/-- A history of calls: the final object and the replies. -/
def Wagyu.calls (fuel : Nat) (w : Wagyu) : List Call → Wagyu × List Reply
  | [] => (w, [])
  | c :: cs =>
    let (w, r) := w.call fuel c
    let (w, rs) := w.calls fuel cs
    (w, r :: rs)

/-- The rings an object holds that held `held` before the calls: everything added since the last `clear()`. -/
def heldAfter (held : List LinearRing) : List Call → List LinearRing
  | [] => held
  | .addLinearRing ring _ :: cs => heldAfter (held ++ [ring]) cs
  | .addPolygon polygon _ :: cs => heldAfter (held ++ polygon) cs
  | .clear :: cs => heldAfter [] cs
  | .execute .. :: cs => heldAfter held cs

/-- The rings a new object holds after the calls. -/
def heldRings (cs : List Call) : List LinearRing := heldAfter [] cs

/-- The calls that added geometry since the last `clear()`, on top of `acc`. -/
def additionsAfter (acc : List Call) : List Call → List Call
  | [] => acc
  | .addLinearRing ring kind :: cs => additionsAfter (acc ++ [.addLinearRing ring kind]) cs
  | .addPolygon polygon kind :: cs => additionsAfter (acc ++ [.addPolygon polygon kind]) cs
  | .clear :: cs => additionsAfter [] cs
  | .execute .. :: cs => additionsAfter acc cs

/-- The calls of a history that added the geometry held at its end. -/
def additions (cs : List Call) : List Call := additionsAfter [] cs

end Wagyu
