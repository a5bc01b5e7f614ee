import Verif.Spec.Api

/-! # Specification: an encoding put together from the encodings of single arguments -/
namespace EthAbi.Spec

/-- What an argument of type `t` contributes, given the encoding `c` of this argument alone: for a dynamic type `c` begins
with an offset, which is left out. -/
def piece (t : Ty) (c : Bytes) : Elem := (t.dynamic, if t.dynamic then c.drop 32 else c)

end EthAbi.Spec
