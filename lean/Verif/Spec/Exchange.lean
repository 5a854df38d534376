import Verif.Spec.History

/-!
# Specification: the same calls with the roles of the two polygons exchanged
-/

namespace Wagyu

/-- The other role. -/
def PolygonKind.exchanged : PolygonKind → PolygonKind
  | .subject => .clip
  | .clip => .subject

/-- The same call with the roles exchanged: what was added as subject is added as clip and the other way round, and the two fill kinds
of an operation change places. -/
def Call.exchanged : Call → Call
  | .addLinearRing ring kind => .addLinearRing ring kind.exchanged
  | .addPolygon polygon kind => .addPolygon polygon kind.exchanged
  | .clear => .clear
  | .execute op sf cf => .execute op cf sf

end Wagyu
