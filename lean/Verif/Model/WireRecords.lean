import Verif.Model.Wire
import Verif.Model.Protobuf

/-!
# Accessors of the generated classes (include/distributions/io/schema.pb.h)

The records of Verif/Model/Protobuf.lean as messages: writing a record is `Clear` and the setters
`set_x` and `add_x`, reading it is the getters.  Floats cross by their bits.
-/

namespace Dist.Wire

open Stream (Bytes)
open Proto

/-- The bits of a float. -/
structure FloatBits (F : Type) where
  bits : F → Nat
  ofBits : Nat → F
  bits_lt : ∀ x, bits x < 2 ^ 32
  ofBits_bits : ∀ x, ofBits (bits x) = x

variable {U F : Type}

/-- Fields 1, 2, … of a cleared message set to the given values (for example
schema.pb.h:2712-2716, 3715-3718). -/
def ofLists (ls : List (List Nat)) : Msg U :=
  ⟨fun n => if n = 0 then [] else (ls[n - 1]?).getD [], []⟩

/-- Getter of a required field (for example schema.pb.h:2709-2711): 0 if it was not set. -/
def Msg.get (m : Msg U) (n : Nat) : Nat := (m.vals n).headD 0

/-- A class with its accessors. -/
structure Class (U R : Type) where
  schema : Schema
  put : R → Msg U
  get : Msg U → R

/-- The bytes of a record. -/
def Class.save {R : Type} (lib : UnknownLib U) (c : Class U R) (r : R) : Bytes :=
  serialize lib c.schema (c.put r)

/-- The record in some bytes, if they can be parsed. -/
def Class.restore {R : Type} (lib : UnknownLib U) (c : Class U R) (bs : Bytes) : Option R :=
  (parse lib c.schema bs).map c.get

/-- `int32` as its two's complement. -/
def i32Bits (x : Int) : Nat := (x % 4294967296).toNat

def bitsI32 (n : Nat) : Int := Int.bmod n 4294967296

variable (fb : FloatBits F)

/-- Accessors of `Clustering_PitmanYor` (schema.pb.h:2560-2602). -/
def cPitmanYor : Class U (PitmanYorMsg F) :=
  ⟨pitmanYor, fun r => ofLists [[fb.bits r.alpha], [fb.bits r.d]],
    fun m => ⟨fb.ofBits (m.get 1), fb.ofBits (m.get 2)⟩⟩

/-- Accessors of `Clustering_LowEntropy` (schema.pb.h:2608-2628). -/
def cLowEntropy : Class U LowEntropyMsg :=
  ⟨lowEntropy, fun r => ofLists [[r.datasetSize.toNat]], fun m => ⟨UInt64.ofNat (m.get 1)⟩⟩

/-- Accessors of `BetaBernoulli_Shared` (schema.pb.h:2696-2738). -/
def cBBShared : Class U (BBSharedMsg F) :=
  ⟨bbShared, fun r => ofLists [[fb.bits r.alpha], [fb.bits r.beta]],
    fun m => ⟨fb.ofBits (m.get 1), fb.ofBits (m.get 2)⟩⟩

/-- Accessors of `BetaBernoulli_Group` (schema.pb.h:2744-2786). -/
def cBBGroup : Class U BBGroupMsg :=
  ⟨bbGroup, fun r => ofLists [[r.heads.toNat], [r.tails.toNat]],
    fun m => ⟨UInt64.ofNat (m.get 1), UInt64.ofNat (m.get 2)⟩⟩

/-- Accessors of `DirichletDiscrete_Shared` (schema.pb.h:2796-2815). -/
def cDDShared : Class U (DDSharedMsg F) :=
  ⟨ddShared, fun r => ofLists [r.alphas.map fb.bits], fun m => ⟨(m.vals 1).map fb.ofBits⟩⟩

/-- Accessors of `DirichletDiscrete_Group` (schema.pb.h:2825-2844). -/
def cDDGroup : Class U DDGroupMsg :=
  ⟨ddGroup, fun r => ofLists [r.counts.map (·.toNat)], fun m => ⟨(m.vals 1).map UInt64.ofNat⟩⟩

/-- Accessors of `DirichletProcessDiscrete_Shared` (schema.pb.h:2858-2971). -/
def cDPDShared : Class U (DPDSharedMsg F) :=
  ⟨dpdShared, fun r => ofLists [[fb.bits r.gamma], [fb.bits r.alpha], r.values.map (·.toNat),
      r.betas.map fb.bits, r.counts.map (·.toNat)],
    fun m => ⟨fb.ofBits (m.get 1), fb.ofBits (m.get 2), (m.vals 3).map UInt32.ofNat,
      (m.vals 4).map fb.ofBits, (m.vals 5).map UInt64.ofNat⟩⟩

/-- Accessors of `DirichletProcessDiscrete_Group` (schema.pb.h:2981-3025). -/
def cDPDGroup : Class U DPDGroupMsg :=
  ⟨dpdGroup, fun r => ofLists [r.keys.map (·.toNat), r.values.map (·.toNat)],
    fun m => ⟨(m.vals 1).map UInt32.ofNat, (m.vals 2).map UInt64.ofNat⟩⟩

/-- Accessors of `GammaPoisson_Shared` (schema.pb.h:3173-3215). -/
def cGPShared : Class U (GPSharedMsg F) :=
  ⟨gpShared, fun r => ofLists [[fb.bits r.alpha], [fb.bits r.invBeta]],
    fun m => ⟨fb.ofBits (m.get 1), fb.ofBits (m.get 2)⟩⟩

/-- Accessors of `GammaPoisson_Group` (schema.pb.h:3221-3285). -/
def cGPGroup : Class U (GPGroupMsg F) :=
  ⟨gpGroup, fun r => ofLists [[r.count.toNat], [r.sum.toNat], [fb.bits r.logProd]],
    fun m => ⟨UInt64.ofNat (m.get 1), UInt64.ofNat (m.get 2), fb.ofBits (m.get 3)⟩⟩

/-- Accessors of `BetaNegativeBinomial_Shared` (schema.pb.h:3295-3359). -/
def cBNBShared : Class U (BNBSharedMsg F) :=
  ⟨bnbShared, fun r => ofLists [[fb.bits r.alpha], [fb.bits r.beta], [r.r.toNat]],
    fun m => ⟨fb.ofBits (m.get 1), fb.ofBits (m.get 2), UInt64.ofNat (m.get 3)⟩⟩

/-- Accessors of `BetaNegativeBinomial_Group` (schema.pb.h:3365-3407). -/
def cBNBGroup : Class U BNBGroupMsg :=
  ⟨bnbGroup, fun r => ofLists [[r.count.toNat], [r.sum.toNat]],
    fun m => ⟨UInt64.ofNat (m.get 1), UInt64.ofNat (m.get 2)⟩⟩

/-- Accessors of `NormalInverseChiSq_Shared` (schema.pb.h:3417-3503). -/
def cNICHShared : Class U (NICHSharedMsg F) :=
  ⟨nichShared, fun r => ofLists [[fb.bits r.mu], [fb.bits r.kappa], [fb.bits r.sigmasq],
      [fb.bits r.nu]],
    fun m => ⟨fb.ofBits (m.get 1), fb.ofBits (m.get 2), fb.ofBits (m.get 3), fb.ofBits (m.get 4)⟩⟩

/-- Accessors of `NormalInverseChiSq_Group` (schema.pb.h:3509-3573). -/
def cNICHGroup : Class U (NICHGroupMsg F) :=
  ⟨nichGroup, fun r => ofLists [[r.count.toNat], [fb.bits r.mean], [fb.bits r.countTimesVariance]],
    fun m => ⟨UInt64.ofNat (m.get 1), fb.ofBits (m.get 2), fb.ofBits (m.get 3)⟩⟩

/-- Accessors of `NormalInverseWishart_Shared` (schema.pb.h:3583-3675). -/
def cNIWShared : Class U (NIWSharedMsg F) :=
  ⟨niwShared, fun r => ofLists [r.mu.map fb.bits, [fb.bits r.kappa], r.psi.map fb.bits,
      [fb.bits r.nu]],
    fun m => ⟨(m.vals 1).map fb.ofBits, fb.ofBits (m.get 2), (m.vals 3).map fb.ofBits,
      fb.ofBits (m.get 4)⟩⟩

/-- Accessors of `NormalInverseWishart_Group` (schema.pb.h:3681-3750). -/
def cNIWGroup : Class U (NIWGroupMsg F) :=
  ⟨niwGroup, fun r => ofLists [[i32Bits r.count], r.sumX.map fb.bits, r.sumXXT.map fb.bits],
    fun m => ⟨bitsI32 (m.get 1), (m.vals 2).map fb.ofBits, (m.vals 3).map fb.ofBits⟩⟩

end Dist.Wire
