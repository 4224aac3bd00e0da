import Verif.Model.Storage

/-!
# Specification: which linear program a GLPK problem object states
-/

namespace PW

variable {F : Type} [Scalar F]

/-- GLPK's code of a bound kind. -/
def Kind.code : Kind → Int
  | .FR => 1
  | .LO => 2
  | .UP => 3
  | .FX => 5

/-- The problem object `p` states the linear program `lp`. -/
structure GlpProb.Represents (p : GlpProb F) (lp : LP F) : Prop where
  r : p.r = lp.r
  c : p.c = lp.c
  max : p.max = true
  mat : ∀ i j, p.coeff (i.val + 1) (j.val + 1) = lp.mat i j
  obj : ∀ j, p.obj (j.val + 1) = lp.obj j
  rowKind : ∀ i, p.rowType (i.val + 1) = (lp.rowKind i).code
  rowBnd : ∀ i, bound (p.rowType (i.val + 1)) (p.rowLb (i.val + 1)) (p.rowUb (i.val + 1)) = lp.rowBnd i
  colKind : ∀ j, p.colType (j.val + 1) = (lp.colKind j).code
  colBnd : ∀ j, bound (p.colType (j.val + 1)) (p.colLb (j.val + 1)) (p.colUb (j.val + 1)) = lp.colBnd j

end PW
