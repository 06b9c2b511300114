import Verif.Base.FloatOps

/-!
# Scalar functions of special.hpp and random.hpp

`FloatOps.lgamma`, `FloatOps.log` are `fast_lgamma` and `fast_log`; the C library's
`lgamma`, `lgammaf` and `logf` are parameters.  The intermediate `double` results of
`log_beta` and `log_binom` are not distinguished from `float`.
-/

namespace Dist.Scalar

open FloatOps FloatNotation

variable {F : Type} [FloatOps F]

/-- The C library functions the code calls. -/
structure CLib (F : Type) where
  lgamma : F → F
  log : F → F

/-- A result that may be `-std::numeric_limits<float>::infinity()`. -/
inductive Ext (F : Type) where
  | negInf
  | num (x : F)

/-- `log_beta` (special.hpp:173-179). -/
def logBeta (c : CLib F) (alpha beta : F) : Ext F :=
  if le alpha (lit 0 1) || le beta (lit 0 1) then .negInf
  else .num (c.lgamma alpha + c.lgamma beta - c.lgamma (alpha + beta))

/-- `fast_log_beta` (special.hpp:181-189). -/
def fastLogBeta (alpha beta : F) : Ext F :=
  if le alpha (lit 0 1) || le beta (lit 0 1) then .negInf
  else .num (lgamma alpha + lgamma beta - lgamma (alpha + beta))

/-- `log_binom` (special.hpp:191-193). -/
def logBinom (c : CLib F) (n k : F) : F :=
  c.lgamma (n + lit 1 1) - (c.lgamma (k + lit 1 1) + c.lgamma (n - k + lit 1 1))

/-- `fast_log_binom` (special.hpp:195-197). -/
def fastLogBinom (n k : F) : F :=
  lgamma (n + lit 1 1) - (lgamma (k + lit 1 1) + lgamma (n - k + lit 1 1))

/-- `fast_score_student_t` (random.hpp:134-145); `sqr` is special.hpp's. -/
def fastScoreStudentT (x nu mu lambda : F) : F :=
  let half : F := lit 1 2
  let p : F := lit 0 1
  let p := p + lgammaNu nu
  let p := p + half * log (lambda / (FloatOps.pi * nu))
  p + (-half * nu - half) * log (lit 1 1 + lambda * ((x - mu) * (x - mu)) / nu)

/-- `score_student_t` (random.hpp:147-157). -/
def scoreStudentT (c : CLib F) (x nu mu lambda : F) : F :=
  let half : F := lit 1 2
  let p := c.lgamma (nu * half + half) - c.lgamma (nu * half)
  let p := p + half * c.log (lambda / (FloatOps.pi * nu))
  p + (-half * nu - half) * c.log (lit 1 1 + lambda * ((x - mu) * (x - mu)) / nu)

end Dist.Scalar
