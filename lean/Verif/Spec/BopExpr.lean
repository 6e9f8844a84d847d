import Verif.Spec.Bops
import Verif.Spec.EvenOdd

/-!
# Expressions of boolean operations

Operations are nested: the result of one call is an operand of the next. What is inside is the value of the expression at each point.
-/
namespace GeoCrossings.Spec

/-- An expression over multipolygons. -/
inductive BopExpr (K : Type)
  | operand (a : List (Polygon K))
  | op (ty : OpType) (l r : BopExpr K)

variable {K : Type} [Field K] [LinearOrder K] [IsStrictOrderedRing K]

/-- The value of the expression at a point. -/
def BopExpr.inside : BopExpr K → Pt K → Bool
  | .operand a, r => decide (EvenOdd (a.flatMap ringsOf) r)
  | .op ty e f, r => inResult ty (e.inside r) (f.inside r)

/-- The operands have closed rings. -/
def BopExpr.closed : BopExpr K → Prop
  | .operand a => ∀ p ∈ a, ∀ ring ∈ ringsOf p, Closed ring
  | .op _ e f => e.closed ∧ f.closed

/-- Laws that hold of sets. -/
inductive SetLaw : BopExpr K → BopExpr K → Prop
  | union_assoc (a b c) : SetLaw (.op .union (.op .union a b) c) (.op .union a (.op .union b c))
  | inter_assoc (a b c) : SetLaw (.op .intersection (.op .intersection a b) c) (.op .intersection a (.op .intersection b c))
  | xor_assoc (a b c) : SetLaw (.op .xor (.op .xor a b) c) (.op .xor a (.op .xor b c))
  | union_inter (a b c) : SetLaw (.op .union a (.op .intersection b c)) (.op .intersection (.op .union a b) (.op .union a c))
  | inter_union (a b c) : SetLaw (.op .intersection a (.op .union b c)) (.op .union (.op .intersection a b) (.op .intersection a c))
  | inter_xor (a b c) : SetLaw (.op .intersection a (.op .xor b c)) (.op .xor (.op .intersection a b) (.op .intersection a c))
  | diff_union (a b c) : SetLaw (.op .difference a (.op .union b c)) (.op .intersection (.op .difference a b) (.op .difference a c))
  | diff_inter (a b c) : SetLaw (.op .difference a (.op .intersection b c)) (.op .union (.op .difference a b) (.op .difference a c))
  | diff_diff (a b c) : SetLaw (.op .difference (.op .difference a b) c) (.op .difference a (.op .union b c))
  | inter_diff (a b) : SetLaw (.op .intersection a b) (.op .difference a (.op .difference a b))
  | xor_union (a b) : SetLaw (.op .xor a b) (.op .union (.op .difference a b) (.op .difference b a))
  | xor_diff (a b) : SetLaw (.op .xor a b) (.op .difference (.op .union a b) (.op .intersection a b))
  | union_xor (a b) : SetLaw (.op .union a b) (.op .xor (.op .xor a b) (.op .intersection a b))

end GeoCrossings.Spec
