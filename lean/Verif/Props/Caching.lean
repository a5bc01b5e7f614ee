import Verif.Lemmas.Registered
import Verif.Lemmas.StrictOnly
import Verif.Lemmas.Imported
import Verif.Props.Examples

/-!
# C28, C29, C31: caches, copies and `strict=False`

Every theorem is about a registry object in the heap after an arbitrary history `h` of calls, each
of which may return or raise.  `(Plain.run [] h)[r]? = some g` says that registry number `r` exists
and that the `register*`, `unregister*` and `copy` calls of the history leave it the registrations
`g`; `Spec/Registry.lean` defines this without caches and addresses.
-/
namespace EthAbi
open Spec

/-! ## C28: caching is transparent -/

/-- `get_encoder`: whatever was looked up, registered and unregistered before, the coder or
exception is the one that the registrations of the moment determine.  (A cached entry can only spare
a `RecursionError`.) -/
theorem C28_getEncoder [Ext] (h : History) {r : Nat} {g : Registry}
    (hg : (Plain.run [] h)[r]? = some g) (fuel : Nat) (s : TypeStr) :
    (((World.empty.run h).getEncoder fuel r s).1 ≠ .error .recursionError →
      ComesTo (fun n => getEncoderFuel g.encoders n s) ((World.empty.run h).getEncoder fuel r s).1) ∧
    (getEncoderFuel g.encoders fuel s ≠ .error .recursionError →
      ((World.empty.run h).getEncoder fuel r s).1 = getEncoderFuel g.encoders fuel s) := by
  have ha := getEncoder_agrees (has_of hg) fuel s
  refine ⟨fun hne => ?_, ha.complete⟩
  obtain ⟨f, hf⟩ := ha.sound hne
  exact comesTo_of (fun n n' hn hx => encoderFuel_mono _ hn hx) hne hf

/-- `get_decoder`, with `strict` absent, positional or by keyword. -/
theorem C28_getDecoder [Ext] (h : History) {r : Nat} {g : Registry}
    (hg : (Plain.run [] h)[r]? = some g) (fuel : Nat) (s : TypeStr) (a : StrictArg) :
    (((World.empty.run h).getDecoder fuel r s a).1 ≠ .error .recursionError →
      ComesTo (fun n => getDecoderFuel g.decoders n s a.value)
        ((World.empty.run h).getDecoder fuel r s a).1) ∧
    (getDecoderFuel g.decoders fuel s a.value ≠ .error .recursionError →
      ((World.empty.run h).getDecoder fuel r s a).1 = getDecoderFuel g.decoders fuel s a.value) := by
  have ha := getDecoder_agrees (has_of hg) fuel s a
  refine ⟨fun hne => ?_, ha.complete⟩
  obtain ⟨f, hf⟩ := ha.sound hne
  exact comesTo_of (fun n n' hn hx => decoderFuel_mono _ hn hx) hne hf

/-- `encode` of a codec over the registry. -/
theorem C28_encode [Ext] (h : History) {r : Nat} {g : Registry}
    (hg : (Plain.run [] h)[r]? = some g) (fuel : Nat) (types : List TypeStr) (args : PyVal) :
    (((World.empty.run h).encode fuel r types args).1 ≠ .error .recursionError →
      ComesTo (fun n => encodeAt g n types args) ((World.empty.run h).encode fuel r types args).1) ∧
    (encodeAt g fuel types args ≠ .error .recursionError →
      ((World.empty.run h).encode fuel r types args).1 = encodeAt g fuel types args) := by
  have ha := encode_agrees fuel types args (has_of hg)
  refine ⟨fun hne => ?_, ha.complete⟩
  obtain ⟨f, hf⟩ := ha.sound hne
  exact comesTo_of (fun n n' hn hx => encodeAt_mono g types args n n' hn hx) hne hf

/-- `has_encoder` / `is_encodable_type`. -/
theorem C28_hasEncoder [Ext] (h : History) {r : Nat} {g : Registry}
    (hg : (Plain.run [] h)[r]? = some g) (fuel : Nat) (s : TypeStr)
    (hne : getEncoderFuel g.encoders fuel s ≠ .error .recursionError) :
    ((World.empty.run h).hasEncoder fuel r s).1 = hasEncoderAt g fuel s :=
  (hasEncoder_complete fuel s (has_of hg) hne).1

/-- `is_encodable`. -/
theorem C28_isEncodable [Ext] (h : History) {r : Nat} {g : Registry}
    (hg : (Plain.run [] h)[r]? = some g) (fuel : Nat) (s : TypeStr) (v : PyVal)
    (hne : getEncoderFuel g.encoders fuel s ≠ .error .recursionError) :
    ((World.empty.run h).isEncodable fuel r s v).1 = isEncodableAt g fuel s v :=
  isEncodable_complete fuel s v (has_of hg) hne

/-- `decode`: the registrations determine the outcome up to the attributes `strict` of decoder
*objects* that were registered (see C31). -/
theorem C28_decode [Ext] (h : History) {r : Nat} {g : Registry}
    (hg : (Plain.run [] h)[r]? = some g) (fuel : Nat) (types : List TypeStr) (data : PyVal)
    (strict : Bool) : ∃ fl : Flags,
    (((World.empty.run h).decode fuel r types data strict).1 ≠ .error .recursionError →
      ComesTo (fun n => decodeAt g fl n types data strict)
        ((World.empty.run h).decode fuel r types data strict).1) ∧
    (decodeAt g fl fuel types data strict ≠ .error .recursionError →
      ((World.empty.run h).decode fuel r types data strict).1 =
        decodeAt g fl fuel types data strict) := by
  have ha := decode_agrees fuel types data strict (has_of hg)
  refine ⟨_, fun hne => ?_, ha.complete⟩
  obtain ⟨f, hf⟩ := ha.sound hne
  exact comesTo_of (fun n n' hn hx => decodeAt_mono g _ types data strict n n' hn hx) hne hf

/-- Which `register*` and `unregister*` calls are refused, and with which exception, depends on the
registrations only. -/
theorem C28_changes [Ext] (h : History) {r : Nat} {g : Registry}
    (hg : (Plain.run [] h)[r]? = some g) (l : LookupArg) (e : Reg Encoder) (d : Reg Decoder)
    (label : Option (List Char)) :
    ((World.empty.run h).registerEncoder r l e label).1 = (g.encoders.register l e label).1 ∧
    ((World.empty.run h).unregisterEncoder r l).1 = (g.encoders.unregister l).1 ∧
    ((World.empty.run h).registerDecoder r l d label).1 = (g.decoders.register l d label).1 ∧
    ((World.empty.run h).unregisterDecoder r l).1 = (g.decoders.unregister l).1 ∧
    ((World.empty.run h).register r l e d label).1 =
      (do (g.encoders.register l e label).1; (g.decoders.register l d label).1) ∧
    ((World.empty.run h).unregister r l).1 =
      (do (g.encoders.unregister l).1; (g.decoders.unregister l).1) :=
  have hh := has_of hg
  ⟨registerEncoder_out hh l e label, unregisterEncoder_out hh l, registerDecoder_out hh l d label,
    unregisterDecoder_out hh l, register_out hh l e d label, unregister_out hh l⟩

/-- A registry with a callable for `foo`, used, and then replaced by another one. -/
def Ex.replaced : History :=
  [(9, .new), (9, .registerEncoder 0 (.str t!"foo" 0) (.obj ⟨none, none, fun _ => .ok [1]⟩) none),
   (9, .encode 0 [t!"foo"] (.list [.int 7])), (9, .unregisterEncoder 0 (.str t!"foo" 1)),
   (9, .encode 0 [t!"foo"] (.list [.int 7])),
   (9, .registerEncoder 0 (.str t!"foo" 2) (.obj ⟨none, none, fun _ => .ok [2]⟩) none)]

example : letI := Ex.ext
    ∃ g, (Plain.run [] Ex.replaced)[0]? = some g ∧
    ((World.empty.run (Ex.replaced.take 2)).encode 9 0 [t!"foo"] (.list [.int 7])).1 = .ok [1] ∧
    ((World.empty.run (Ex.replaced.take 4)).encode 9 0 [t!"foo"] (.list [.int 7])).1 =
      .error .noEntriesFound ∧
    ((World.empty.run Ex.replaced).encode 9 0 [t!"foo"] (.list [.int 7])).1 = .ok [2] ∧
    encodeAt g 9 [t!"foo"] (.list [.int 7]) = .ok [2] :=
  letI := Ex.ext
  ⟨_, rfl, by decide +kernel, by decide +kernel, by decide +kernel, by decide +kernel⟩

/-- After `import eth_abi` and any calls that register or unregister nothing in the default registry,
with any caches, copies and changes to other registries, `encode` through the cached default
registry is the function `encode` of all other theorems. -/
theorem C28_default_encode [Ext] (h : History) (hk : Keeps 0 h) (fuel : Nat) (types : List TypeStr)
    (args : PyVal) (hf : ∀ s ∈ types, s.length < fuel) :
    ((World.imported.run h).encode fuel 0 types args).1 = encode types args := by
  rw [encode_outcome (default_has hk) fun s hs => (encoderFuel_default (hf s hs)).1]
  unfold encodeAt EthAbi.encode Registry.encode
  rw [mapPyM_congr_mem types fun s hs => (encoderFuel_default (hf s hs)).2]

theorem C28_default_decode [Ext] (h : History) (hk : Keeps 0 h) (fuel : Nat) (types : List TypeStr)
    (data : PyVal) (strict : Bool) (hf : ∀ s ∈ types, s.length < fuel) :
    ((World.imported.run h).decode fuel 0 types data strict).1 = decode types data strict := by
  rw [decode_outcome (default_has hk) fun s hs => (decoderFuel_default (hf s hs) strict).1]
  rw [decodeAt_free noShared_default _ fun _ => true]
  unfold decodeAt EthAbi.decode Registry.decode Registry.decodeWith
  rw [mapPyM_congr_mem types fun s hs => (decoderFuel_default (hf s hs) strict).2]

theorem C28_default_isEncodable [Ext] (h : History) (hk : Keeps 0 h) (fuel : Nat) (s : TypeStr)
    (v : PyVal) (hf : s.length < fuel) :
    ((World.imported.run h).isEncodable fuel 0 s v).1 = isEncodable s v := by
  rw [isEncodable_complete fuel s v (default_has hk) (encoderFuel_default hf).1]
  exact isEncodableAt_eq (encoderFuel_default hf).2 v

theorem C28_default_isEncodableType [Ext] (h : History) (hk : Keeps 0 h) (fuel : Nat) (s : TypeStr)
    (hf : s.length < fuel) :
    ((World.imported.run h).hasEncoder fuel 0 s).1 = isEncodableType s := by
  rw [(hasEncoder_complete fuel s (default_has hk) (encoderFuel_default hf).1).1]
  exact hasEncoderAt_eq (encoderFuel_default hf).2

/-- The same for `encode_packed` and the registry of packed encoders. -/
theorem C28_packed_encode [Ext] (h : History) (hk : Keeps 1 h) (fuel : Nat) (types : List TypeStr)
    (args : PyVal) (hf : ∀ s ∈ types, s.length < fuel) :
    ((World.imported.run h).encode fuel 1 types args).1 = encodePacked types args := by
  rw [encode_outcome (packed_has hk) fun s hs => (encoderFuel_packed (hf s hs)).1]
  unfold encodeAt EthAbi.encodePacked Registry.encode
  rw [mapPyM_congr_mem types fun s hs => (encoderFuel_packed (hf s hs)).2]

theorem C28_packed_isEncodable [Ext] (h : History) (hk : Keeps 1 h) (fuel : Nat) (s : TypeStr)
    (v : PyVal) (hf : s.length < fuel) :
    ((World.imported.run h).isEncodable fuel 1 s v).1 = isEncodablePacked s v := by
  rw [isEncodable_complete fuel s v (packed_has hk) (encoderFuel_packed hf).1]
  exact isEncodableAt_eq (encoderFuel_packed hf).2 v

example : Keeps 0 [(9, .copy 0), (9, .unregister 2 (.str t!"uint" 0)), (30, .encode 2 Ex.types (.list Ex.args)),
    (30, .encode 0 Ex.types (.list Ex.args))] := by decide

example : letI := Ex.ext
    ((World.imported.run [(9, .copy 0), (9, .unregister 2 (.str t!"uint" 0)),
      (30, .encode 2 Ex.types (.list Ex.args)), (30, .encode 0 Ex.types (.list Ex.args))]).encode 30 0
        Ex.types (.list Ex.args)).1 = encode Ex.types (.list Ex.args) ∧
    ((World.imported.run [(9, .copy 0), (9, .unregister 2 (.str t!"uint" 0))]).encode 30 2
        Ex.types (.list Ex.args)).1 = .error .noEntriesFound := by decide +kernel

/-! ## C29: copies are isolated -/

/-- Calls on other registries — copies of this one, its original, or any other, made before or
during these calls — leave every lookup and every codec call on registry `r` unchanged. -/
theorem C29_isolated [Ext] (h h' : History) {r : Nat} (hr : r < (Plain.run [] h).length)
    (ha : Avoids r h') (fuel : Nat) :
    (∀ s, ((World.empty.run (h ++ h')).getEncoder fuel r s).1 =
      ((World.empty.run h).getEncoder fuel r s).1) ∧
    (∀ s a, ((World.empty.run (h ++ h')).getDecoder fuel r s a).1 =
      ((World.empty.run h).getDecoder fuel r s a).1) ∧
    (∀ s, ((World.empty.run (h ++ h')).hasEncoder fuel r s).1 =
      ((World.empty.run h).hasEncoder fuel r s).1) ∧
    (∀ types args, ((World.empty.run (h ++ h')).encode fuel r types args).1 =
      ((World.empty.run h).encode fuel r types args).1) ∧
    (∀ s v, ((World.empty.run (h ++ h')).isEncodable fuel r s v).1 =
      ((World.empty.run h).isEncodable fuel r s v).1) :=
  have hs := sameAt_avoids hr ha
  ⟨fun s => (same_getEncoder hs fuel s).1, fun s a => (same_getDecoder hs fuel s a).1,
    fun s => (same_hasEncoder hs fuel s).1, fun types args => same_encode hs fuel types args,
    fun s v => same_isEncodable hs fuel s v⟩

/-- They also leave unchanged which registrations it accepts. -/
theorem C29_changes [Ext] (h h' : History) {r : Nat} (hr : r < (Plain.run [] h).length)
    (ha : Avoids r h') (l : LookupArg) (e : Reg Encoder) (d : Reg Decoder) (label : Option (List Char)) :
    ((World.empty.run (h ++ h')).registerEncoder r l e label).1 =
      ((World.empty.run h).registerEncoder r l e label).1 ∧
    ((World.empty.run (h ++ h')).unregisterEncoder r l).1 =
      ((World.empty.run h).unregisterEncoder r l).1 ∧
    ((World.empty.run (h ++ h')).registerDecoder r l d label).1 =
      ((World.empty.run h).registerDecoder r l d label).1 ∧
    ((World.empty.run (h ++ h')).unregisterDecoder r l).1 =
      ((World.empty.run h).unregisterDecoder r l).1 ∧
    ((World.empty.run (h ++ h')).register r l e d label).1 =
      ((World.empty.run h).register r l e d label).1 ∧
    ((World.empty.run (h ++ h')).unregister r l).1 = ((World.empty.run h).unregister r l).1 := by
  obtain ⟨h1, h2⟩ := same_has (sameAt_avoids hr ha)
  refine ⟨?_, ?_, ?_, ?_, ?_, ?_⟩
  · rw [registerEncoder_out h1, registerEncoder_out h2]
  · rw [unregisterEncoder_out h1, unregisterEncoder_out h2]
  · rw [registerDecoder_out h1, registerDecoder_out h2]
  · rw [unregisterDecoder_out h1, unregisterDecoder_out h2]
  · rw [register_out h1, register_out h2]
  · rw [unregister_out h1, unregister_out h2]

/-- `decode` is unchanged too if no decoder *object* is registered.  Missing: registered decoder
objects, for which `C29_decode_false` shows the contrary. -/
theorem C29_decode_partial [Ext] (h h' : History) {r : Nat} {g : Registry}
    (hg : (Plain.run [] h)[r]? = some g) (hd : NoSharedDecoders g) (ha : Avoids r h') (fuel : Nat)
    (types : List TypeStr) (data : PyVal) (strict : Bool) :
    ((World.empty.run (h ++ h')).decode fuel r types data strict).1 =
      ((World.empty.run h).decode fuel r types data strict).1 := by
  have hr : r < (Plain.run [] h).length := by
    by_contra hc
    rw [List.getElem?_eq_none (by omega)] at hg
    cases hg
  have hs := sameAt_avoids hr ha
  refine same_decode hs ?_ fuel types data strict
  rw [hs.view, (has_of hg).2.2]
  exact hd

/-- The registry that `copy()` returns answers as the original did at the time of the call, until it
is changed itself, whatever happens to the original or to other registries. -/
theorem C29_copy [Ext] (h h' : History) {r : Nat} {g : Registry}
    (hg : (Plain.run [] h)[r]? = some g) (n : Nat) (ha : Avoids (Plain.run [] h).length h') (fuel : Nat) :
    let before := World.empty.run h
    let after := World.empty.run (h ++ [(n, .copy r)] ++ h')
    let c := (Plain.run [] h).length
    (∀ s, (before.getEncoder fuel r s).1 ≠ .error .recursionError →
      (after.getEncoder fuel c s).1 ≠ .error .recursionError →
      (after.getEncoder fuel c s).1 = (before.getEncoder fuel r s).1) ∧
    (∀ s a, (before.getDecoder fuel r s a).1 ≠ .error .recursionError →
      (after.getDecoder fuel c s a).1 ≠ .error .recursionError →
      (after.getDecoder fuel c s a).1 = (before.getDecoder fuel r s a).1) ∧
    (∀ types args, (before.encode fuel r types args).1 ≠ .error .recursionError →
      (after.encode fuel c types args).1 ≠ .error .recursionError →
      (after.encode fuel c types args).1 = (before.encode fuel r types args).1) := by
  have hc := avoids_get (copy_get hg n) ha
  exact ⟨fun s h1 h2 => comesTo_unique ((C28_getEncoder _ hc fuel s).1 h2) ((C28_getEncoder _ hg fuel s).1 h1),
    fun s a h1 h2 =>
      comesTo_unique ((C28_getDecoder _ hc fuel s a).1 h2) ((C28_getDecoder _ hg fuel s a).1 h1),
    fun types args h1 h2 => comesTo_unique ((C28_encode _ hc fuel types args).1 h2)
      ((C28_encode _ hg fuel types args).1 h1)⟩

/-- The original and a copy, with different registrations for `foo` after the copy was made. -/
def Ex.copied : History :=
  [(9, .new), (9, .registerEncoder 0 (.str t!"foo" 0) (.obj ⟨none, none, fun _ => .ok [1]⟩) none),
   (9, .encode 0 [t!"foo"] (.list [.int 7]))]

def Ex.onCopy : History :=
  [(9, .copy 0), (9, .unregisterEncoder 1 (.str t!"foo" 1)),
   (9, .registerEncoder 1 (.str t!"foo" 2) (.obj ⟨none, none, fun _ => .ok [2]⟩) none),
   (9, .encode 1 [t!"foo"] (.list [.int 7]))]

example : letI := Ex.ext
    0 < (Plain.run [] Ex.copied).length ∧ Avoids 0 Ex.onCopy ∧
    ((World.empty.run (Ex.copied ++ Ex.onCopy)).encode 9 0 [t!"foo"] (.list [.int 7])).1 =
      .ok [1] ∧
    ((World.empty.run (Ex.copied ++ Ex.onCopy)).encode 9 1 [t!"foo"] (.list [.int 7])).1 =
      .ok [2] := by
  let := Ex.ext
  exact ⟨by decide, by decide, by decide +kernel, by decide +kernel⟩

example : ∃ g, (Plain.run [] Ex.copied)[0]? = some g ∧ NoSharedDecoders g :=
  ⟨_, rfl, fun q hq => by cases hq⟩

example : Avoids (Plain.run [] Ex.copied).length
    [(9, .unregisterEncoder 0 (.str t!"foo" 1)), (9, .copy 1), (9, .encode 2 [t!"foo"] (.list [.int 7]))] := by
  decide

/-- A registry with a `ByteStringDecoder()` object for `foo`. -/
def Ex.object : History :=
  [(9, .new), (9, .registerDecoder 0 (.str t!"foo" 0) (.obj (byteStringDecoder (.shared 0))) none)]

/-- A head, a length of 1, and a data word with a byte too many. -/
def Ex.dirty : PyVal := .bytes (be32 32 ++ be32 1 ++ [7] ++ be32 (2 ^ 248 - 1) |>.take 96)

/-- A copy shares the registered decoder object: a lax decode with the copy changes what a strict
decode with the original does. -/
theorem C29_decode_false : ¬ ∀ [Ext] (h h' : History) (r fuel : Nat) (types : List TypeStr)
    (data : PyVal), Avoids r h' →
    ((World.empty.run (h ++ h')).decode fuel r types data true).1 =
      ((World.empty.run h).decode fuel r types data true).1 := by
  intro hall
  have := @hall Ex.ext (Ex.object ++ [(9, .decode 0 [t!"foo"] Ex.dirty true)])
    [(9, .copy 0), (9, .decode 1 [t!"foo"] Ex.dirty false)] 0 9 [t!"foo"] Ex.dirty (by decide)
  revert this
  let := Ex.ext
  decide +kernel

/-! ## C31: `strict=False` does not leak -/

/-- The strict decode refuses, the lax one accepts, and afterwards the strict decode accepts too. -/
theorem C31_false : ¬ ∀ [Ext] (h : History) (r n fuel : Nat) (types types' : List TypeStr)
    (data data' : PyVal),
    ((World.empty.run h).decode fuel r types data true).1 ≠ .error .recursionError →
    ((World.empty.run (h ++ [(n, .decode r types' data' false)])).decode fuel r types data true).1 =
      ((World.empty.run h).decode fuel r types data true).1 := by
  intro hall
  have := @hall Ex.ext (Ex.object ++ [(9, .decode 0 [t!"foo"] Ex.dirty true)]) 0 9 9
    [t!"foo"] [t!"foo"] Ex.dirty Ex.dirty
  revert this
  let := Ex.ext
  decide +kernel

/-- If no decoder object is registered, a decode gives what the registrations, the type strings, the
data and its own `strict` determine, after any history, and in particular after any decodes with
another `strict`.  Missing: registered decoder objects (`C31_false`). -/
theorem C31_partial [Ext] (h : History) {r : Nat} {g : Registry}
    (hg : (Plain.run [] h)[r]? = some g) (hd : NoSharedDecoders g) (fuel : Nat)
    (types : List TypeStr) (data : PyVal) (strict : Bool) (fl : Flags) :
    (((World.empty.run h).decode fuel r types data strict).1 ≠ .error .recursionError →
      ComesTo (fun n => decodeAt g fl n types data strict)
        ((World.empty.run h).decode fuel r types data strict).1) ∧
    (decodeAt g fl fuel types data strict ≠ .error .recursionError →
      ((World.empty.run h).decode fuel r types data strict).1 =
        decodeAt g fl fuel types data strict) := by
  obtain ⟨fl', h1, h2⟩ := C28_decode h hg fuel types data strict
  have he : (fun n => decodeAt g fl' n types data strict) = fun n => decodeAt g fl n types data strict :=
    funext fun n => decodeAt_free hd fl' fl n types data strict
  rw [he] at h1
  rw [decodeAt_free hd fl' fl fuel types data strict] at h2
  exact ⟨h1, h2⟩

/-- The property as stated, for registries without decoder objects: calls that change no
registration of `r`, such as decodes with `strict=False`, change the outcome of no later decode. -/
theorem C31_later_partial [Ext] (h h' : History) {r : Nat} {g : Registry}
    (hg : (Plain.run [] h)[r]? = some g) (hd : NoSharedDecoders g) (hk : Keeps r h') (fuel : Nat)
    (types : List TypeStr) (data : PyVal) (strict : Bool)
    (h1 : ((World.empty.run h).decode fuel r types data strict).1 ≠ .error .recursionError)
    (h2 : ((World.empty.run (h ++ h')).decode fuel r types data strict).1 ≠ .error .recursionError) :
    ((World.empty.run (h ++ h')).decode fuel r types data strict).1 =
      ((World.empty.run h).decode fuel r types data strict).1 := by
  have hr : r < (Plain.run [] h).length := by
    by_contra hc
    rw [List.getElem?_eq_none (by omega)] at hg
    cases hg
  have hg' : (Plain.run [] (h ++ h'))[r]? = some g := by
    rw [plain_run_append, keeps_get r h' _ hr hk, hg]
  exact comesTo_unique ((C31_partial _ hg' hd fuel types data strict fun _ => true).1 h2)
    ((C31_partial _ hg hd fuel types data strict fun _ => true).1 h1)

/-- Registries that do have decoder objects: as long as nobody decodes with `strict=False`, on any
registry, a decode gives what the registrations, the type strings and the data determine. -/
theorem C31_objects_partial [Ext] (h : History) (hs : OnlyStrict h) {r : Nat} {g : Registry}
    (hg : (Plain.run [] h)[r]? = some g) (fuel : Nat) (types : List TypeStr) (data : PyVal) :
    (((World.empty.run h).decode fuel r types data true).1 ≠ .error .recursionError →
      ComesTo (fun n => decodeAt g (fun _ => true) n types data true)
        ((World.empty.run h).decode fuel r types data true).1) ∧
    (decodeAt g (fun _ => true) fuel types data true ≠ .error .recursionError →
      ((World.empty.run h).decode fuel r types data true).1 =
        decodeAt g (fun _ => true) fuel types data true) := by
  have ha := decode_agrees fuel types data true (has_of hg)
  rw [show ((World.empty.run h).decode fuel r types data true).2.flags = fun _ => true from
    funext (decode_keeps fuel r types data _ (empty_keeps h hs))] at ha
  refine ⟨fun hne => ?_, ha.complete⟩
  obtain ⟨f, hf⟩ := ha.sound hne
  exact comesTo_of (fun n n' hn hx => decodeAt_mono g _ types data true n n' hn hx) hne hf

/-- A registered decoder object that is used with `strict=True` only, also in a copy. -/
example : letI := Ex.ext
    OnlyStrict (Ex.object ++ [(9, .decode 0 [t!"foo"] Ex.dirty true), (9, .copy 0), (9, .getDecoder 1 t!"foo" .absent)]) ∧
    ((World.empty.run (Ex.object ++ [(9, .decode 0 [t!"foo"] Ex.dirty true), (9, .copy 0),
      (9, .getDecoder 1 t!"foo" .absent)])).decode 9 1 [t!"foo"] Ex.dirty true).1 = .error .nonEmptyPaddingBytes := by
  refine ⟨?_, by decide +kernel⟩
  simp [OnlyStrict, Ex.object, StrictArg.value]

/-- The default registry has no decoder objects: with it `strict=False` never leaks. -/
theorem C31_default [Ext] (h : History) (hk : Keeps 0 h) (n : Nat) (types types' : List TypeStr)
    (data data' : PyVal) (strict strict' : Bool) (fuel : Nat) (hf : ∀ s ∈ types, s.length < fuel) :
    ((World.imported.run (h ++ [(n, .decode 0 types' data' strict')])).decode fuel 0 types data strict).1 =
      ((World.imported.run h).decode fuel 0 types data strict).1 := by
  have hk' : Keeps 0 (h ++ [(n, .decode 0 types' data' strict')]) := by
    intro c hc
    rcases List.mem_append.1 hc with hc | hc
    · exact hk c hc
    · rw [List.mem_singleton.1 hc]
      simp [changes]
  rw [C28_default_decode _ hk' fuel types data strict hf, C28_default_decode _ hk fuel types data strict hf]

example : letI := Ex.ext
    ((World.imported.run [(9, .decode 0 [t!"bytes"] Ex.dirty true), (9, .decode 0 [t!"bytes"] Ex.dirty false)]).decode
      9 0 [t!"bytes"] Ex.dirty true).1 = .error .nonEmptyPaddingBytes ∧
    ((World.imported.run []).decode 9 0 [t!"bytes"] Ex.dirty false).1 = .ok (.tuple [.bytes [7]]) := by
  decide +kernel

/-- Two decoder classes and a callable are registered, none of them an object with a `strict`. -/
example : ∃ g, (Plain.run [] [(9, .new),
      (9, .registerDecoder 0 (.str t!"bytes" 0) (.cls fun _ => .ret (.ok (byteStringDecoder (.own true)))) none),
      (9, .registerDecoder 0 (.str t!"foo" 0) (.obj ⟨none, false, none, .own true, fun _ _ st => .ok (.none, st)⟩)
        none)])[0]? = some g ∧ NoSharedDecoders g := by
  refine ⟨_, rfl, fun q hq => ?_⟩
  change q ∈ [_, _] at hq
  rcases List.mem_cons.1 hq with rfl | hq
  · intro s d hd
    cases hd
    exact ⟨⟨true, rfl⟩, fun _ _ _ _ => rfl⟩
  · rw [List.mem_singleton.1 hq]
    exact ⟨⟨true, rfl⟩, fun _ _ _ _ => rfl⟩

end EthAbi
