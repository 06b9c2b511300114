import Verif.Model.BB
import Verif.Model.BNB
import Verif.Model.DD
import Verif.Model.DPD
import Verif.Model.GP
import Verif.Model.NICH
import Verif.Model.Hp

/-!
# `sample_group`

The Python entry point that draws the parameters of a group once and then values given the
parameters.  The C++ flavor makes a group with `new Group()` and does not call `init`: the classes
have no constructor of their own, so the object is zeroed, which is what `init` would leave
(distributions/lp/models/_bb.pyx:39-41 and the other models alike).  An argument declared `int`
raises outside the range of `int`.
-/

namespace Dist

open FloatOps FloatNotation

variable {F σ : Type} [FloatOps F]

/-- `for i in xrange(size)` (distributions/lp/models/_gp.pyx:148-150 and the like). -/
def sampleLoop {V : Type} (eval : σ → Res (V × σ)) : Nat → σ → Res (List V × σ)
  | 0, s => .ok ([], s)
  | n + 1, s => do
    let (v, s) ← eval s
    let (vs, s) ← sampleLoop eval n s
    return (v :: vs, s)

/-- `sample_group` (distributions/lp/models/_bb.pyx:141-151) with `Sampler` (bb.hpp:163-183). -/
def BB.sampleGroup (rng : Rng F σ) (s : σ) (sh : BB.Shared F) (size : Int) :
    Res (List Bool × σ) := do
  let size ← Hp.cInt size
  let (p, s) ← BB.samplerInit rng s sh ⟨0, 0⟩
  sampleLoop (fun s => .ok (sampleBernoulli rng s p)) size.toNat s

/-- `sample_group` (distributions/lp/models/_gp.pyx:141-151) with `Sampler` (gp.hpp:175-191). -/
def GP.sampleGroup (rng : Rng F σ) (s : σ) (sh : GP.Shared F) (size : Int) :
    Res (List Int × σ) := do
  let size ← Hp.cInt size
  let post := sh.plusGroup ⟨0, 0, ofInt 0⟩
  let (mean, s) := rng.gamma s post.alpha (lit 1 1 / post.invBeta)
  sampleLoop (fun s => .ok (rng.poisson s mean)) size.toNat s

/-- `sample_group` (distributions/lp/models/_bnb.pyx:141-151) with `Sampler` (bnb.hpp:177-193). -/
def BNB.sampleGroup (rng : Rng F σ) (s : σ) (sh : BNB.Shared F) (size : Int) :
    Res (List Int × σ) := do
  let size ← Hp.cInt size
  let post := sh.plusGroup ⟨0, 0⟩
  let (p, s) := sampleBeta rng s post.alpha post.beta
  sampleLoop (fun s => .ok (rng.negBinomial s p sh.r.toNat)) size.toNat s

/-- `sample_group` (distributions/lp/models/_dd.pyx:141-151) with `Sampler` (dd.hpp:201-220); the
zeroed group has all its counts 0. -/
def DD.sampleGroup (rng : Rng F σ) (s : σ) (sh : DD.Shared F) (size : Int) :
    Res (List Nat × σ) := do
  let size ← Hp.cInt size
  let ps ← DD.posterior sh.alphas (List.replicate sh.alphas.length 0)
  let (ps, s) := sampleDirichlet rng s ps
  sampleLoop (fun s => sampleDiscrete rng s ps) size.toNat s

/-- `sample_group` (distributions/lp/models/_dpd.pyx:150-160) with `Sampler` (dpd.hpp:274-307);
`ks` is the visiting order of the betas. -/
def DPD.sampleGroup (rng : Rng F σ) (s : σ) (sh : DPD.Shared F) (ks : List UInt32) (size : Int) :
    Res (List UInt32 × σ) := do
  let size ← Hp.cInt size
  let table := DPD.samplerTable sh SparseCounter.raw.clear ks
  let (ps, s) := sampleDirichlet rng s (table.map Prod.snd)
  sampleLoop (fun s => do
    let (i, s) ← sampleDiscrete rng s ps
    let v ← getAt (table.map Prod.fst) i
    return (v, s)) size.toNat s

/-- `sample_group` (distributions/lp/models/_nich.pyx:141-151) with `Sampler` (nich.hpp:213-231). -/
def NICH.sampleGroup (rng : Rng F σ) (s : σ) (sh : NICH.Shared F) (size : Int) :
    Res (List F × σ) := do
  let size ← Hp.cInt size
  let post := sh.plusGroup ⟨0, ofInt 0, ofInt 0⟩
  let (c, s) := rng.chisq s post.nu
  let sigmasq := post.nu * post.sigmasq / c
  let (mu, s) := sampleNormal rng s post.mu (sigmasq / post.kappa)
  sampleLoop (fun s => .ok (sampleNormal rng s mu sigmasq)) size.toNat s

/-- `sample_group` (distributions/hp/models/dd.pyx:179-186). -/
def Hp.DD.sampleGroup (rng : Rng F σ) (s : σ) (sh : Hp.DD.Shared F) (size : Int) :
    Res (List Nat × σ) := do
  let size ← Hp.cInt size
  let (ps, s) ← Hp.DD.samplerPrior rng s sh
  sampleLoop (fun s => Hp.sampleDiscrete rng s ps) size.toNat s

/-- `sample_group` (distributions/hp/models/gp.pyx:152-159). -/
def Hp.GP.sampleGroup (rng : Rng F σ) (s : σ) (sh : GP.Shared F) (size : Int) :
    Res (List Int × σ) := do
  let size ← Hp.cInt size
  let (mean, s) ← Hp.GP.samplerInit rng s sh
  sampleLoop (fun s => .ok (rng.poisson s mean)) size.toNat s

/-- `sample_group` (distributions/hp/models/nich.pyx:227-234). -/
def Hp.NICH.sampleGroup (rng : Rng F σ) (s : σ) (sh : NICH.Shared F) (size : Int) :
    Res (List F × σ) := do
  let size ← Hp.cInt size
  let ((mu, sigmasq), s) ← Hp.NICH.samplerInit rng s sh
  sampleLoop (fun s => .ok (Hp.sampleNormal rng s mu sigmasq)) size.toNat s

end Dist
