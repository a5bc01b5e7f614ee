import Verif.Spec.Custom

/-!
# The attributes of coders, in the specification and in the model
-/
namespace EthAbi
open Spec

theorem encoder_counts (e : Encoder) : countsDynamic e.isDynamic = e.dyn := rfl

theorem decoder_counts (d : Decoder) : countsDynamic d.isDynamic = d.dyn := rfl

theorem validation_eq (e : Encoder) (v : PyVal) : validation e v = e.validateValue v := by
  unfold validation Encoder.validateValue; rfl

end EthAbi
