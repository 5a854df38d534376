import Verif.Spec.Plane

/-!
# Specification: when two rings have the same shape

Only the data type of points is taken from the model.
-/

namespace Wagyu.Spec

/-- The two rings (lists of points, read in a circle) have the same shape: one becomes the other when one starts at another point, when
points are put in or left out that are on one line with the points before and after them (among them points on a side, repeated points,
and the tips of spikes), and when a ring that has shrunk to a single point is left out. -/
inductive SameShape : List Point → List Point → Prop
  /-- starting at another point -/
  | rotate (u v : List Point) : SameShape (u ++ v) (v ++ u)
  /-- leaving out `b`, which comes after `a`; the next point is the first one of `l`, or `a` again -/
  | drop (a b : Point) (l : List Point) : Collinear (toQ a) (toQ b) (toQ (l.headD a)) → SameShape (a :: b :: l) (a :: l)
  /-- a single point -/
  | point (a : Point) : SameShape [a] []
  | refl (l : List Point) : SameShape l l
  | symm {l l' : List Point} : SameShape l l' → SameShape l' l
  | trans {l l' l'' : List Point} : SameShape l l' → SameShape l' l'' → SameShape l l''

end Wagyu.Spec
